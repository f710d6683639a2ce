import Verif.Print.Spec
import Verif.Props.Polynomials
import Verif.Var.Registry
import Verif.Poly.FnDefs

/-!
# Property C97: the output of a polynomial is a formula for it

`outPoly io name p` is the text that `operator<<` and `str()` produce; `name` gives the names of the variables.  `readPoly` (`Print/Read`) is an independent definition of what a formula means.
`GoodName`: the name begins with no digit and contains none of `+ - * ^`.
-/

namespace CLPoly
open Mono Print
variable {vc : Var → Var → Bool} {mc : Mono → Mono → Bool}

/-- what the output of a polynomial over `R` is read as -/
theorem print_read {R : Type} [CommRing R] (ho : VarOrd vc) {io : CoefIO R} {num : List Char → R} {var : List Char → Var} {name : Var → List Char}
    (hio : IOok io (readFactor (fun t => MvPolynomial.C (num t)) fun n => MvPolynomial.X (var n)) (MvPolynomial.C : R →+* MvPolynomial Var R)) {p : PV Mono R} (hp : PolyOK vc mc p)
    (hn : ∀ t ∈ p, ∀ x ∈ t.1.data, GoodName (name x.1) ∧ var (name x.1) = x.1) : readPoly num var (outPoly io name p) = val p := by
  unfold readPoly outPoly
  rw [poly_read hio p fun t ht => mono_ok ho (hp.monos t ht) (hn t ht)]
  unfold val
  congr 1
  refine List.map_congr_left fun t _ => ?_
  rw [MvPolynomial.C_mul_monomial, mul_one]

/-- the variables of a polynomial have good names, and the name determines the variable -/
def NamesOK {R : Type} (name : Var → List Char) (var : List Char → Var) (p : PV Mono R) : Prop := ∀ t ∈ p, ∀ x ∈ t.1.data, GoodName (name x.1) ∧ var (name x.1) = x.1

/-- integer coefficients -/
theorem C97_ZZ (ho : VarOrd vc) (name : Var → List Char) (var : List Char → Var) (p : PV Mono ℤ) (hp : PolyOK vc mc p) (hn : NamesOK name var p) :
    readPoly readInt var (outPoly ioZZ name p) = val p := print_read ho (ioZZ_ok _) hp hn

/-- rational coefficients -/
theorem C97_QQ (ho : VarOrd vc) (name : Var → List Char) (var : List Char → Var) (p : PV Mono ℚ) (hp : PolyOK vc mc p) (hn : NamesOK name var p) :
    readPoly readRat var (outPoly ioQQ name p) = val p := print_read ho (ioQQ_ok _) hp hn

/-- coefficients modulo `m` -/
theorem C97_Zp (ho : VarOrd vc) (m : ℕ) [NeZero m] (name : Var → List Char) (var : List Char → Var) (p : PV Mono (ZMod m)) (hp : PolyOK vc mc p) (hn : NamesOK name var p) :
    readPoly readInt var (outPoly (ioZp m) name p) = val p := print_read ho (ioZp_ok m _) hp hn

/-- Polynomials with the same output are equal, if different variables of the two have different good names -/
theorem C97_injective (M : MonoOrd vc mc) (ho : VarOrd vc) (name : Var → List Char) (var : List Char → Var) (p q : PV Mono ℤ) (hp : PolyOK vc mc p) (hq : PolyOK vc mc q) (hn : NamesOK name var p)
    (hn' : NamesOK name var q) (h : outPoly ioZZ name p = outPoly ioZZ name q) : p = q := by
  refine PolyOK.ext M hp hq ?_
  rw [← C97_ZZ ho name var p hp hn, h, C97_ZZ ho name var q hq hn']

/-- polynomials in one variable with integer, rational and modular coefficients; the variable is written `#` -/
theorem C97_upolynomial (p : PV ℕ ℤ) (q : PV ℕ ℚ) (m : ℕ) [NeZero m] (r : PV ℕ (ZMod m)) :
    readUPoly readInt (outUPoly ioZZ p) = Upoly.toPoly p ∧ readUPoly readRat (outUPoly ioQQ q) = Upoly.toPoly q ∧ readUPoly readInt (outUPoly (ioZp m) r) = Upoly.toPoly r := by
  unfold readUPoly outUPoly Upoly.toPoly
  rw [poly_read (ioZZ_ok Polynomial.C) p fun t _ => umono_ok t.1, poly_read (ioQQ_ok Polynomial.C) q fun t _ => umono_ok t.1, poly_read (ioZp_ok m Polynomial.C) r fun t _ => umono_ok t.1]
  simp only [Polynomial.C_mul_X_pow_eq_monomial, and_self]

/-- Names are not checked: `get_variable("x*y")` succeeds (the test of the first character in `is_user_def_variable_name` is always true), and then the variable named `x*y` and the product of the
variables named `x` and `y` have the same output. -/
theorem C97_names_refuted : ∃ (name : Var → List Char) (p q : PV Mono ℤ), (∀ v ∈ [1, 2, 3], ∀ w ∈ [1, 2, 3], name v = name w → v = w) ∧
    (∀ v ∈ [1, 2, 3], Var.isUserDefName (String.ofList (name v)) = true) ∧ (∀ t ∈ p ++ q, ∀ x ∈ t.1.data, x.1 ∈ [1, 2, 3]) ∧
    PolyOK varLess (lexGt varLess) p ∧ PolyOK varLess (lexGt varLess) q ∧ p ≠ q ∧ outPoly ioZZ name p = outPoly ioZZ name q := by
  refine ⟨fun v => if v = 1 then ['x'] else if v = 2 then ['y'] else ['x', '*', 'y'], [(mkMono [(1, 1), (2, 1)], 1)], [(mkMono [(3, 1)], 1)], by decide, by decide +kernel, by decide, by decide +kernel, by decide +kernel,
    by decide, by decide⟩

/-- `-x²y + 3x - 1` -/
example : outPoly ioZZ (fun v => if v = 1 then ['x'] else ['y']) [(exXY 2 1, -1), (exXY 1 0, 3), (exXY 0 0, -1)] = "-x^2*y+3*x-1".toList := by decide +kernel
example : PolyOK varLess (lexGt varLess) [(exXY 2 1, (-1 : ℤ)), (exXY 1 0, 3), (exXY 0 0, -1)] := by decide +kernel
example : NamesOK (fun v => if v = 1 then ['x'] else ['y']) (fun s => if s = ['x'] then 1 else 2) [(exXY 2 1, (-1 : ℤ)), (exXY 1 0, 3), (exXY 0 0, -1)] := by
  have h : ∀ v, GoodName ((fun v : Var => if v = 1 then ['x'] else ['y']) v) := by
    intro v
    dsimp only
    split
    · exact ⟨⟨'x', [], rfl, rfl⟩, by decide⟩
    · exact ⟨⟨'y', [], rfl, rfl⟩, by decide⟩
  refine fun t ht x hx => ⟨h _, ?_⟩
  revert t x
  decide +kernel
example : outPoly ioQQ (fun v => if v = 1 then ['x'] else ['y']) [(exXY 2 0, -1/2), (exXY 0 0, 3/4)] = "-1/2*x^2+3/4".toList := by decide +kernel
/-- modulo 7 a coefficient 6 is written as a minus after a plus -/
example : outPoly (ioZp 7) (fun v => if v = 1 then ['x'] else ['y']) [(exXY 2 0, 1), (exXY 1 0, 6), (exXY 0 0, 6)] = "x^2+-x+6".toList := by decide +kernel
example : outUPoly ioZZ [(2, 1), (1, -1), (0, 5)] = "#^2-#+5".toList := by decide +kernel

end CLPoly
