import Verif.Factor.Signed
import Verif.Gcd.Eval
import Verif.Upoly.LLLDefs

/-! # A polynomial whose negative is returned by `factorize`

`f = (x² + 1)³ (L x + 1)` with `L = 6 (P₁P₂ − 1)`, `P₁`, `P₂` the first two primes of the modular gcd.  The gcd of `f` and `f'` is computed modulo `P₁` and `P₂` as `lg · (x² + 1)²` with
`lg = P₁P₂ − 1 ≡ −1`, so it comes out as `−(x² + 1)²`; the squarefree decomposition then contains the unit `−1` with multiplicity 2, which `factorize` multiplies into the content once. -/

namespace CLPoly
namespace SignCase
open Mono Mgcd Run Factor Upoly

/-- `6 (P₁P₂ − 1)` -/
def fsL : ℤ := 6 * (18446744073709551557 * 18446744073709551533 - 1)
/-- `(x² + 1)³ (L x + 1)` -/
def fsF : UPoly ℤ := [(7, fsL), (6, 1), (5, 3 * fsL), (4, 3), (3, 3 * fsL), (2, 3), (1, fsL), (0, 1)]
def fsPrev : ℕ → Option ℕ := fun n => if n = firstPrime then some secondPrime else none

def fsA : PV Mono ℤ := upolyToPoly 1 fsF
/-- a sixth of the derivative -/
def fsA' : PV Mono ℤ := (derivLex fsA).map fun t => (t.1, t.2 / 6)
def fsB : PV Mono ℤ := upolyToPoly 1 [(4, -1), (2, -2), (0, -1)]
def fsB' : PV Mono ℤ := upolyToPoly 1 [(3, -1), (1, -1)]
def fsC : PV Mono ℤ := upolyToPoly 1 [(2, 1), (0, 1)]

def fsBm (n : ℕ) : PV Mono (ZMod n) := upolyToPoly 1 [(4, -1), (2, -2), (0, -1)]

theorem fs_gcd1 : Mgcd.gcdZ varLess false fsPrev 20 20 fsA (derivLex fsA) [] = some (fsB, []) := by
  unfold Mgcd.gcdZ
  rw [if_neg (by decide), if_neg (by decide), if_neg (by decide)]
  rw [run_bind_some (a := .inr (fsA, derivLex fsA)) (s' := []) rfl]
  dsimp only
  rw [run_bind_some (a := [(Mono.one, 1)]) (s' := []) (by decide +kernel)]
  rw [run_bind_some (a := [(Mono.one, 6)]) (s' := []) (by decide +kernel)]
  rw [run_bind_some (a := [(Mono.one, 1)]) (s' := []) (by decide +kernel)]
  rw [run_bind_some (a := fsA) (s' := []) (by decide +kernel)]
  rw [run_bind_some (a := fsA') (s' := []) (by decide +kernel)]
  rw [run_bind_some (a := [(Mono.one, 18446744073709551557 * 18446744073709551533 - 1)]) (s' := []) (by decide +kernel)]
  rw [primeLoop_first (Pd := (fsBm _, 4)) (draws' := []) (q := secondPrime) firstPrime_prime rfl rfl (by decide +kernel) (by decide +kernel) (by decide +kernel) (by decide +kernel)]
  refine primeLoop_last (Pd := (fsBm _, 4)) (draws' := []) secondPrime_prime rfl rfl (by decide +kernel) (by decide +kernel) (by decide +kernel) (by decide +kernel) ?_
  decide +kernel

def fsCm (n : ℕ) : PV Mono (ZMod n) := upolyToPoly 1 [(2, 1), (0, 1)]

theorem fs_gcd2 : Mgcd.gcdZ varLess false fsPrev 20 20 fsB (derivLex fsB) [] = some (fsC, []) := by
  unfold Mgcd.gcdZ
  rw [if_neg (by decide), if_neg (by decide), if_neg (by decide)]
  rw [run_bind_some (a := .inr (fsB, derivLex fsB)) (s' := []) rfl]
  dsimp only
  rw [run_bind_some (a := [(Mono.one, 1)]) (s' := []) (by decide +kernel)]
  rw [run_bind_some (a := [(Mono.one, 4)]) (s' := []) (by decide +kernel)]
  rw [run_bind_some (a := [(Mono.one, 1)]) (s' := []) (by decide +kernel)]
  rw [run_bind_some (a := fsB) (s' := []) (by decide +kernel)]
  rw [run_bind_some (a := fsB') (s' := []) (by decide +kernel)]
  rw [run_bind_some (a := [(Mono.one, 1)]) (s' := []) (by decide +kernel)]
  rw [primeLoop_first (Pd := (fsCm _, 2)) (draws' := []) (q := secondPrime) firstPrime_prime rfl rfl (by decide +kernel) (by decide +kernel) (by decide +kernel) (by decide +kernel)]
  refine primeLoop_last (Pd := (fsCm _, 2)) (draws' := []) secondPrime_prime rfl rfl (by decide +kernel) (by decide +kernel) (by decide +kernel) (by decide +kernel) ?_
  decide +kernel

theorem fs_gcd3 : Mgcd.gcdZ varLess false fsPrev 20 20 fsC (derivLex fsC) [] = some ([(Mono.one, 1)], []) := by
  unfold Mgcd.gcdZ
  rw [if_neg (by decide), if_neg (by decide), if_pos (by decide)]
  decide +kernel

def fsD : PV Mono ℤ := upolyToPoly 1 [(3, -fsL), (2, -1), (1, -fsL), (0, -1)]

theorem fs_sqf : squarefreeFactorize varLess (Mgcd.gcdZ varLess false fsPrev 20 20) 20 20 fsA [] =
    some ([([(Mono.one, 1)], 1), (upolyToPoly 1 [(1, fsL), (0, 1)], 1), ([(Mono.one, -1)], 2), (fsC, 3)], []) := by
  unfold squarefreeFactorize
  rw [if_neg (by decide), if_neg (by decide +kernel)]
  rw [run_bind_some (a := [(Mono.one, 1)]) (s' := []) (by decide +kernel)]
  rw [run_bind_some (a := fsA) (s' := []) (by decide +kernel)]
  rw [run_bind_some (a := [([(Mono.one, 1)], 1)]) (s' := []) (by decide +kernel)]
  unfold Mgcd.sqfLoop
  rw [run_bind_some fs_gcd1, if_neg (by decide +kernel), run_bind_some (a := fsD) (s' := []) (by decide +kernel), if_pos (by decide +kernel), if_neg (by decide)]
  unfold Mgcd.sqfLoop
  rw [run_bind_some fs_gcd2, if_neg (by decide +kernel), run_bind_some (a := upolyToPoly 1 [(2, -1), (0, -1)]) (s' := []) (by decide +kernel), if_pos (by decide +kernel), if_pos (by decide)]
  rw [run_bind_some (a := upolyToPoly 1 [(1, fsL), (0, 1)]) (s' := []) (by decide +kernel)]
  unfold Mgcd.sqfLoop
  rw [run_bind_some fs_gcd3, if_pos (by decide +kernel), if_pos (by decide +kernel)]
  decide +kernel

def fsFact : UPoly ℤ → Option (List (UPoly ℤ)) := factorSqfPrimL 10 10 [(⟨3, Nat.prime_three⟩, [])] 1 id

theorem fs_factorize : factorizeU varLess 1 fsPrev 20 [] fsFact id fsF = some (-1, [([(1, fsL), (0, 1)], 1), ([(2, 1), (0, 1)], 3)]) := by
  unfold factorizeU factorize
  rw [if_neg (by decide), if_neg (by decide)]
  have e : primitive fsF = (1, fsF) := by decide +kernel
  dsimp only
  rw [e, if_neg (by decide)]
  have e2 : sqfU varLess 1 fsPrev 20 [] fsF = some [([(0, 1)], 1), ([(1, fsL), (0, 1)], 1), ([(0, -1)], 2), ([(2, 1), (0, 1)], 3)] := by
    unfold sqfU
    rw [show upolyToPoly 1 fsF = fsA from rfl, fs_sqf]
    decide +kernel
  rw [e2]
  decide +kernel

end SignCase
end CLPoly
