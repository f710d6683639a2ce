import Verif.Groebner.Defs
import Verif.Poly.ConvertDefs

/-! # Model of the public entries of groebner.hh: `groebner_basis` over ZZ and the class `Ideal` -/

namespace CLPoly.GB
open CLPoly Mono

/-- groebner.hh 422–427: the gcd of the absolute values, with the early exit. -/
def contLoop : ℤ → PV Mono ℤ → ℤ
  | c, [] => c
  | c, t :: p => let c' : ℤ := Int.gcd c (t.2.natAbs : ℤ); if c' = 1 then c' else contLoop c' p

/-- groebner.hh 421–432: divide by the content, leading coefficient positive.  ZZ `/=` truncates (C03). -/
def primitive (p : PV Mono ℤ) : PV Mono ℤ :=
  let c := contLoop (lc p).natAbs p
  let c := if lc p < 0 then -c else c
  p.map fun t => (t.1, Int.tdiv t.2 c)

/-- continue after a computation that returned; `none` is "out of fuel" -/
def andThen {α β : Type _} (x : Option (Out α)) (f : α → Option (Out β)) : Option (Out β) :=
  match x with
  | none => none
  | some (.ok a) => f a
  | some .throws => some .throws
  | some .trap => some .trap
  | some .ub => some .ub

@[simp] theorem andThen_ok {α β : Type _} (a : α) (f : α → Option (Out β)) : andThen (some (.ok a)) f = f a := rfl

/-- groebner.hh 395–437 `groebner_basis` over ZZ. -/
def gbZZ (vc : Var → Var → Bool) (mc : Mono → Mono → Bool) (sort : List CP → List CP) (fuel : Nat) (F : List (PV Mono ℤ)) :
    Option (Out (List (PV Mono ℤ))) :=
  andThen (buchbergerAlg vc mc (· / ·) sort fuel (F.map (convZQ vc mc))) fun G =>
    some (.ok (G.map fun g => primitive (convQZ vc mc g)))

/-- groebner.hh 440–475: the state of an `Ideal` object. -/
structure IdealSt (R : Type _) where
  generators : List (PV Mono R)
  cache : List (PV Mono R)
  computed : Bool

/-- groebner.hh 446–450: the constructors. -/
def IdealSt.make {R : Type _} (gens : List (PV Mono R)) : IdealSt R := ⟨gens, [], false⟩

section
variable {R : Type _} [DecidableEq R] [Zero R] [One R] [Sub R] [Neg R] [Mul R]

/-- groebner.hh 456–462 `groebner_basis()`: `gb` is the free function `clpoly::groebner_basis` for the coefficient type.
Returns the new state and the basis. -/
def IdealSt.groebnerBasis (gb : List (PV Mono R) → Option (Out (List (PV Mono R)))) (s : IdealSt R) :
    Option (Out (IdealSt R × List (PV Mono R))) :=
  if s.computed then some (.ok (s, s.cache))
  else andThen (gb s.generators) fun G => some (.ok (⟨s.generators, G, true⟩, G))

/-- the calls of the class -/
inductive Call (R : Type _) where
  | generators
  | groebnerBasis
  | contains (f : PV Mono R)
  | reduce (f : PV Mono R)

inductive Answer (R : Type _) where
  | basis (G : List (PV Mono R))
  | bool (b : Bool)
  | poly (p : PV Mono R)
  deriving DecidableEq

/-- groebner.hh 452–474: one call; `nf f G` is `normal_form`. -/
def IdealSt.call (gb : List (PV Mono R) → Option (Out (List (PV Mono R)))) (nf : PV Mono R → List (PV Mono R) → Option (Out (PV Mono R)))
    (s : IdealSt R) : Call R → Option (Out (IdealSt R × Answer R))
  | .generators => some (.ok (s, .basis s.generators))
  | .groebnerBasis => andThen (s.groebnerBasis gb) fun x => some (.ok (x.1, .basis x.2))
  | .contains f => andThen (s.groebnerBasis gb) fun x => andThen (nf f x.2) fun r => some (.ok (x.1, .bool r.isEmpty))
  | .reduce f => andThen (s.groebnerBasis gb) fun x => andThen (nf f x.2) fun r => some (.ok (x.1, .poly r))

/-- a history of calls on one object: all the answers -/
def IdealSt.run (gb : List (PV Mono R) → Option (Out (List (PV Mono R)))) (nf : PV Mono R → List (PV Mono R) → Option (Out (PV Mono R))) :
    IdealSt R → List (Call R) → Option (Out (List (Answer R)))
  | _, [] => some (.ok [])
  | s, c :: cs => andThen (s.call gb nf c) fun x => andThen (IdealSt.run gb nf x.1 cs) fun as => some (.ok (x.2 :: as))

end
end CLPoly.GB
