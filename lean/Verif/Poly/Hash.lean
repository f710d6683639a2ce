import Verif.Poly.OpsSpec
import Verif.Num.QQ
import Verif.Num.Zp

/-!
# Model of hashing and of equality of polynomial objects (basic_polynomial.hh 377–388, 574–590, basic_monomial.hh 377–392, variable.hh 196–213, number.hh 292–298)

Coefficients are objects here (`ZZ`, `QQ`, `Zp`), not the numbers they stand for: the hash looks at the representation.  `mix seed h` is `boost::hash_combine`, a parameter; `boost::hash` of a vector and of a pair
start with the seed 0 and combine the elements in order (Boost's documentation; the variant of newer versions of Boost that reads pairs of bytes at once concerns characters only).
-/

namespace CLPoly

/-- `boost::hash` of a vector whose elements have these hashes -/
def hashRange (mix : ℕ → ℕ → ℕ) (l : List ℕ) : ℕ := l.foldl mix 0
/-- `boost::hash` of a pair -/
def hashPair (mix : ℕ → ℕ → ℕ) (a b : ℕ) : ℕ := mix (mix 0 a) b

/-- basic_monomial.hh 377–382 `hash_value`; `hv` is the hash of a serial number (variable.hh 196–200), `he` that of an exponent -/
def Mono.hash (mix : ℕ → ℕ → ℕ) (hv : Var → ℕ) (he : ℤ → ℕ) (m : Mono) : ℕ := hashRange mix (m.data.map fun t => hashPair mix (hv t.1) (he t.2))

/-- number.hh 292–298 `hash_value(Zp)`; `hw` is the hash of a word -/
def Zp.hash (mix : ℕ → ℕ → ℕ) (hw : ℕ → ℕ) (z : Zp) : ℕ := mix (mix 0 (hw z.i)) (hw z.p)

/-- basic_polynomial.hh 574–579 `hash_value`; `hm`, `hc` are the hashes of a monomial and of a coefficient -/
def polyHash {T : Type} (mix : ℕ → ℕ → ℕ) (hm : Mono → ℕ) (hc : T → ℕ) (p : PV Mono T) : ℕ := hashRange mix (p.map fun t => hashPair mix (hm t.1) (hc t.2))

/-- basic.hh 326–341, the loop -/
def polyBeqGo {T : Type} (beq : T → T → Bool) : PV Mono T → PV Mono T → Bool
  | p1 :: t1, p2 :: t2 => if (!Mono.beq p1.1 p2.1) || !beq p1.2 p2.2 then false else polyBeqGo beq t1 t2
  | _, _ => true

/-- basic_polynomial.hh 377–388 `operator==`: `pair_vec_equal_to(p.data, this->data)`; `beq` is the equality of the coefficients.  The assertion on the orders is a hypothesis of the theorems (one order) -/
def polyBeq {T : Type} (beq : T → T → Bool) (a b : PV Mono T) : Bool := if b.length ≠ a.length then false else polyBeqGo beq b a

end CLPoly
