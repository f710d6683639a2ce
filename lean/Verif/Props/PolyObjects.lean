import Verif.Poly.Objects
import Verif.Props.Polynomials

/-!
# Property C113: histories of polynomial objects

`PolyObj.run vc C dflt s ops` is the store after the calls `ops`; `PolyObj.specRun` is the same list of calls read as assignments of a program over the ring of polynomials.  `O` are the values of the
order objects, `vc c` the order of variables that `c` stands for, `codeGr R (vc c)` and `codeLex R (vc c)` the two monomial orders over it; `dflt` is the value of a default-constructed order object.
-/

namespace CLPoly
open Mono MvPolynomial PolyObj

variable {O : Type*} [DecidableEq O] {R : Type*} [CommRing R] [DecidableEq R] {vc : O → Var → Var → Bool} {dflt : O}

/-- a product within the packing capacity (grlex), see C17 -/
def FitGr (_ : O) (f g : MvPolynomial Var R) : Prop := (f.totalDegree + g.totalDegree : ℤ) < capGr (f.vars ∪ g.vars).card
/-- a power within the packing capacity (grlex), see C21 -/
def PFitGr (_ : O) (f : MvPolynomial Var R) (n : ℕ) : Prop := (n * f.totalDegree : ℤ) < capGr f.vars.card
/-- the same for lex -/
def FitLex (_ : O) (f g : MvPolynomial Var R) : Prop := ∀ v, (f.degreeOf v + g.degreeOf v : ℤ) < capLex (f.vars ∪ g.vars).card
def PFitLex (_ : O) (f : MvPolynomial Var R) (n : ℕ) : Prop := ∀ v, (n * f.degreeOf v : ℤ) < capLex f.vars.card

/-- a careful history never fails; after it every object is in normal form, and what the objects stand for is what the program over the ring of polynomials computes: whatever the objects shared,
whichever operands and targets coincided (grlex) -/
theorem C113_history_grlex [NoZeroDivisors R] [Nontrivial R] (hv : ∀ c, VarOrd (vc c)) {s : Store O R} {ops : List (Op O R)}
    (h0 : ∀ a, PolyOK (vc (s a).ord) (grlexGt (vc (s a).ord)) (s a).data) (hc : CarefulRun vc (fun c => codeGr R (vc c)) dflt FitGr PFitGr s ops) :
    ∃ s', run vc (fun c => codeGr R (vc c)) dflt s ops = some s' ∧ (∀ a, PolyOK (vc (s' a).ord) (grlexGt (vc (s' a).ord)) (s' a).data) ∧
      (fun a => (val (s' a).data, (s' a).ord)) = specRun dflt (fun a => (val (s a).data, (s a).ord)) ops :=
  run_spec (fun c => grlex_ord (hv c)) (fun c p q hp hq hf => C17_mul_grlex (hv c) p q hp hq (.inr (.inr hf))) (fun c p n hp hf => C21_pow_grlex (hv c) p hp n hf) ops h0 hc

/-- the same for lex -/
theorem C113_history_lex [NoZeroDivisors R] [Nontrivial R] (hv : ∀ c, VarOrd (vc c)) {s : Store O R} {ops : List (Op O R)}
    (h0 : ∀ a, PolyOK (vc (s a).ord) (lexGt (vc (s a).ord)) (s a).data) (hc : CarefulRun vc (fun c => codeLex R (vc c)) dflt FitLex PFitLex s ops) :
    ∃ s', run vc (fun c => codeLex R (vc c)) dflt s ops = some s' ∧ (∀ a, PolyOK (vc (s' a).ord) (lexGt (vc (s' a).ord)) (s' a).data) ∧
      (fun a => (val (s' a).data, (s' a).ord)) = specRun dflt (fun a => (val (s a).data, (s a).ord)) ops :=
  run_spec (fun c => lex_ord (hv c)) (fun c p q hp hq hf => C17_mul_lex (hv c) p q hp hq (.inr (.inr hf))) (fun c p n hp hf => C21_pow_lex (hv c) p hp n hf) ops h0 hc

/-- hence two programs that compute the same polynomial leave the same object (so `==` after any two histories is equality of what was computed) -/
theorem C113_same_grlex [NoZeroDivisors R] [Nontrivial R] (hv : ∀ c, VarOrd (vc c)) {s t s' t' : Store O R} {ops ops' : List (Op O R)} {a b : ℕ}
    (h0 : ∀ a, PolyOK (vc (s a).ord) (grlexGt (vc (s a).ord)) (s a).data) (hc : CarefulRun vc (fun c => codeGr R (vc c)) dflt FitGr PFitGr s ops)
    (h0' : ∀ a, PolyOK (vc (t a).ord) (grlexGt (vc (t a).ord)) (t a).data) (hc' : CarefulRun vc (fun c => codeGr R (vc c)) dflt FitGr PFitGr t ops')
    (e : run vc (fun c => codeGr R (vc c)) dflt s ops = some s') (e' : run vc (fun c => codeGr R (vc c)) dflt t ops' = some t')
    (ho : (s' a).ord = (t' b).ord) :
    pvEqualTo (t' b).data (s' a).data = true ↔
      (specRun dflt (fun a => (val (s a).data, (s a).ord)) ops a).1 = (specRun dflt (fun a => (val (t a).data, (t a).ord)) ops' b).1 := by
  obtain ⟨s1, e1, k1, m1⟩ := C113_history_grlex hv h0 hc
  obtain ⟨t1, e2, k2, m2⟩ := C113_history_grlex hv h0' hc'
  rw [e] at e1
  rw [e'] at e2
  obtain rfl := Option.some.inj e1
  obtain rfl := Option.some.inj e2
  rw [← m1, ← m2]
  have hb := k2 b
  rw [← ho] at hb
  exact C22_eq (grlex_ord (hv _)) _ _ (k1 a) hb

/-- the same for lex -/
theorem C113_same_lex [NoZeroDivisors R] [Nontrivial R] (hv : ∀ c, VarOrd (vc c)) {s t s' t' : Store O R} {ops ops' : List (Op O R)} {a b : ℕ}
    (h0 : ∀ a, PolyOK (vc (s a).ord) (lexGt (vc (s a).ord)) (s a).data) (hc : CarefulRun vc (fun c => codeLex R (vc c)) dflt FitLex PFitLex s ops)
    (h0' : ∀ a, PolyOK (vc (t a).ord) (lexGt (vc (t a).ord)) (t a).data) (hc' : CarefulRun vc (fun c => codeLex R (vc c)) dflt FitLex PFitLex t ops')
    (e : run vc (fun c => codeLex R (vc c)) dflt s ops = some s') (e' : run vc (fun c => codeLex R (vc c)) dflt t ops' = some t')
    (ho : (s' a).ord = (t' b).ord) :
    pvEqualTo (t' b).data (s' a).data = true ↔
      (specRun dflt (fun a => (val (s a).data, (s a).ord)) ops a).1 = (specRun dflt (fun a => (val (t a).data, (t a).ord)) ops' b).1 := by
  obtain ⟨s1, e1, k1, m1⟩ := C113_history_lex hv h0 hc
  obtain ⟨t1, e2, k2, m2⟩ := C113_history_lex hv h0' hc'
  rw [e] at e1
  rw [e'] at e2
  obtain rfl := Option.some.inj e1
  obtain rfl := Option.some.inj e2
  rw [← m1, ← m2]
  have hb := k2 b
  rw [← ho] at hb
  exact C22_eq (lex_ord (hv _)) _ _ (k1 a) hb

/-! ## the meaning of programs: what `specRun` says about a few calls -/

omit [DecidableEq O] in
/-- `x_k = x_k + x_k` doubles, also when target and operands are one object; `x_k = x_k * x_j` and `x_k = x_k - x_j` read the operands before they write -/
theorem C113_alias (ρ : ℕ → MvPolynomial Var R × O) (k j : ℕ) (h : j ≠ k) :
    (spec dflt ρ (.add k k k) k).1 = 2 * (ρ k).1 ∧ (spec dflt ρ (.mul k k j) k).1 = (ρ k).1 * (ρ j).1 ∧ (spec dflt ρ (.mul k k j) j) = ρ j ∧
    (spec dflt ρ (.sub k j k) k).1 = (ρ j).1 - (ρ k).1 ∧ (spec dflt ρ (.sub k k k) k).1 = 0 := by
  refine ⟨?_, ?_, ?_, ?_, ?_⟩ <;> simp [spec, h, two_mul]

/-! ## what is refuted -/

/-- the orders `univariate_order(v)` -/
abbrev uniVc : Var → Var → Var → Bool := varUni

/-- multiplication by the coefficient 0 forgets the order: with `univariate_order(1)` (0 is the default), after `y = x * 0` the sum `x + y` fails its assertion, while after `y = x * 3` it does not -/
theorem C113_refuted_scale_zero :
    (run uniVc (fun c => codeLex ℤ (uniVc c)) 0 (fun _ => ⟨[(exXY 1 0, 1)], 1⟩) [.scale 1 0 0, .add 2 0 1]).isNone = true ∧
    (run uniVc (fun c => codeLex ℤ (uniVc c)) 0 (fun _ => ⟨[(exXY 1 0, 1)], 1⟩) [.scale 1 0 3, .add 2 0 1]).map (fun s => s 2) = some ⟨[(exXY 1 0, 4)], 1⟩ := by
  constructor <;> decide +kernel

/-- changing the order of an object by `comp(c)` does not sort its terms: `x + y²` under `univariate_order(1)`, then `comp(univariate_order(2))`, is out of order, and its difference with the same
polynomial built under the new order is not the zero polynomial but a vector with two terms `-y²` and `y²` -/
theorem C113_refuted_setComp :
    (run uniVc (fun c => codeLex ℤ (uniVc c)) 0 (fun _ => ⟨[], 1⟩)
      [.setData 0 [(exXY 1 0, 1), (exXY 0 2, 1)], .setComp 0 2, .new 1 2, .setData 1 [(exXY 1 0, 1), (exXY 0 2, 1)], .sub 2 0 1]).map (fun s => s 2)
        = some ⟨[(exXY 0 2, -1), (exXY 0 2, 1)], 2⟩ := by decide +kernel

/-! ## a history -/

/-- `p0 = x + y; p1 = p0; p1 = p1 * p0; p2 = move(p1); p2 = p2 - p0; p1 = pow(p0, 3); swap(p1, p2); p0 = -p0; p0 = p0 * 5; p0 = p0 + xy; p0 = p0 + 4; p0 = p0 - xy; p3 = p1 + p0` -/
def exampleProgram : List (Op Unit ℤ) :=
  [.setData 0 [(exXY 0 1, 1), (exXY 1 0, 1)], .copy 1 0, .mul 1 1 0, .move 2 1, .sub 2 2 0, .pow 1 0 3, .swap 1 2, .neg 0 0, .scale 0 0 5, .addMono 0 0 (exXY 1 1), .addConst 0 0 4, .subMono 0 0 (exXY 1 1), .add 3 1 0]

example : (run (fun _ : Unit => varLess) (fun _ => codeGr ℤ varLess) () (fun _ => ⟨[], ()⟩) exampleProgram).map (fun s => ((s 0).data, (s 1).data, (s 3).data)) =
    some ([(exXY 1 0, -5), (exXY 0 1, -5), (exXY 0 0, 4)], [(exXY 2 0, 1), (exXY 1 1, 2), (exXY 0 2, 1), (exXY 1 0, -1), (exXY 0 1, -1)],
      [(exXY 2 0, 1), (exXY 1 1, 2), (exXY 0 2, 1), (exXY 1 0, -6), (exXY 0 1, -6), (exXY 0 0, 4)]) := by decide +kernel
example : ∀ _ : Unit, VarOrd varLess := fun _ => varLess_ord
example : ∀ _ : ℕ, PolyOK varLess (grlexGt varLess) ([] : PV Mono ℤ) := fun _ => .nil

/-- the product of `3x²y + x − 5` and `x − y²` is within the capacity (total degrees 3 and 2, two variables: `5 < 2^21`) -/
theorem exPQ_fit : FitGr () (val exP) (val exQ) := by
  have M := grlex_ord varLess_ord
  obtain ⟨t, ht, e1⟩ := exP_ok.exists_total M (by simp [exP])
  obtain ⟨u, hu, e2⟩ := exQ_ok.exists_total M (by simp [exQ])
  unfold FitGr
  rw [← e1, ← e2, ← polyVars_eq M exP_ok, ← polyVars_eq M exQ_ok]
  have h1 : ∀ t ∈ exP, ∀ u ∈ exQ, t.1.deg + u.1.deg < capGr (polyVars exP ∪ polyVars exQ).card := by decide +kernel
  exact h1 t ht u hu

/-- the hypotheses hold for a program with a product -/
example : CarefulRun (fun _ : Unit => varLess) (fun _ => codeGr ℤ varLess) () FitGr PFitGr (fun _ => ⟨[], ()⟩)
    [.result 0 () exP, .result 1 () exQ, .mul 2 0 1, .add 0 0 0, .move 3 2, .swap 3 1, .neg 3 3, .sub 3 3 3, .scale 1 0 0, .addMono 1 0 (exXY 1 1)] := by
  have hr : ∀ s : Store Unit ℤ, CarefulRun (fun _ : Unit => varLess) (fun _ => codeGr ℤ varLess) () FitGr PFitGr s
      [.add 0 0 0, .move 3 2, .swap 3 1, .neg 3 3, .sub 3 3 3, .scale 1 0 0, .addMono 1 0 (exXY 1 1)] := fun s =>
    ⟨rfl, fun _ _ => ⟨trivial, fun _ _ => ⟨trivial, fun _ _ => ⟨trivial, fun _ _ => ⟨rfl, fun _ _ => ⟨trivial, fun _ _ => ⟨(by decide +kernel : Valid varLess (exXY 1 1)), fun _ _ => trivial⟩⟩⟩⟩⟩⟩⟩
  refine ⟨exP_ok, fun s1 e1 => ?_⟩
  obtain rfl := Option.some.inj e1
  refine ⟨exQ_ok, fun s1 e1 => ?_⟩
  obtain rfl := Option.some.inj e1
  exact ⟨⟨rfl, exPQ_fit⟩, fun s1 _ => hr s1⟩

end CLPoly
