import Verif.Props.MGcd

/-!
# C59–C62 for polynomials in one variable

The theorems `…_partial` of Props/MGcd.lean exclude runs with the event described there.  With a single variable the event cannot happen: here the full statements, for the code
(`strict = false`), every order, every stream of random numbers and every choice of the primes; only the degree is limited by the 63 bits of the packed exponent words.
-/

namespace CLPoly
open Mono Mgcd Run MvPolynomial
open Dense (IsGcd)

variable {vc vc' : Var → Var → Bool} {mc' : Mono → Mono → Bool} {N : ℕ}

theorem small_one {v : Var} (v0 : v ≠ 0) (hN : N < 2 ^ 63 - 1) : Small {v} N := ⟨by simpa using v0.symm, by have := hN; simp [capLex]; omega, hN⟩

/-- `gcd(F, G)` in any order -/
theorem C59_gcd_any_univariate (ho : VarOrd vc) (M : MonoOrd vc' mc') {v : Var} (v0 : v ≠ 0) (hN : N < 2 ^ 63 - 1) {prev : ℕ → Option ℕ} (hprev : Upoly.PrevOK prev) {F G : PV Mono ℤ}
    (hF : MgOperand vc' mc' {v} N F) (hG : MgOperand vc' mc' {v} N G) {fuel : ℕ} {draws rest : List ℕ} {r : PV Mono ℤ}
    (h : gcdAny vc false prev fuel vc' mc' F G draws = some (r, rest)) : PolyOK vc' mc' r ∧ IsGcd (val r) (val F) (val G) :=
  (C59_gcd_any_partial ho M (small_one v0 hN) hprev (tame_one (by simp) hprev) hF hG h).2

/-- two runs agree up to the sign -/
theorem C59_gcd_unique_univariate (ho : VarOrd vc) {v : Var} (v0 : v ≠ 0) (hN : N < 2 ^ 63 - 1) {prev prev' : ℕ → Option ℕ} (hprev : Upoly.PrevOK prev) (hprev' : Upoly.PrevOK prev') {F G : PV Mono ℤ}
    (hF : MgOperand vc (lexGt vc) {v} N F) (hG : MgOperand vc (lexGt vc) {v} N G) {dfuel fuel dfuel' fuel' : ℕ} {draws rest draws' rest' : List ℕ} {r r' : PV Mono ℤ}
    (h : gcdZ vc false prev dfuel fuel F G draws = some (r, rest)) (h' : gcdZ vc false prev' dfuel' fuel' F G draws' = some (r', rest')) : val r' = val r ∨ val r' = - val r :=
  C59_gcd_unique_partial ho (small_one v0 hN) hprev hprev' (tame_one (by simp) hprev) (tame_one (by simp) hprev') hF hG h h'

/-- in one variable the content is the greatest common divisor of the coefficients: an integer that divides them all, and that every such integer divides -/
theorem C60_cont_univariate (ho : VarOrd vc) {v : Var} (v0 : v ≠ 0) (hN : N < 2 ^ 63 - 1) {prev : ℕ → Option ℕ} (hprev : Upoly.PrevOK prev) {F : PV Mono ℤ}
    (hF : MgOperand vc (lexGt vc) {v} N F) {fuel : ℕ} {draws rest : List ℕ} {c : PV Mono ℤ} (h : cont vc false prev fuel F draws = some (c, rest)) :
    PolyOK vc (lexGt vc) c ∧ pFirstVar F ∉ (val c).vars ∧ val c ∣ val F ∧ ∀ e : MvPolynomial Var ℤ, pFirstVar F ∉ e.vars → e ∣ val F → e ∣ val c :=
  (C60_cont_partial ho (small_one v0 hN) hprev (tame_one (by simp) hprev) hF h).2

theorem C60_pp_univariate (ho : VarOrd vc) {v : Var} (v0 : v ≠ 0) (hN : N < 2 ^ 63 - 1) {prev : ℕ → Option ℕ} (hprev : Upoly.PrevOK prev) {F : PV Mono ℤ}
    (hF : MgOperand vc (lexGt vc) {v} N F) (hn : ∀ z : ℤ, val F ≠ C z) {fuel : ℕ} {draws rest : List ℕ} {q : PV Mono ℤ} (h : pp vc false prev fuel F draws = some (q, rest)) :
    PolyOK vc (lexGt vc) q ∧ (∀ e : MvPolynomial Var ℤ, pFirstVar F ∉ e.vars → e ∣ val q → IsUnit e) ∧ ∃ c : MvPolynomial Var ℤ, pFirstVar F ∉ c.vars ∧ val F = val q * c :=
  (C60_pp_partial ho (small_one v0 hN) hprev (tame_one (by simp) hprev) hF hn h).2

theorem C61_is_squarefree_univariate (ho : VarOrd vc) (M : MonoOrd vc' mc') {v : Var} (v0 : v ≠ 0) (hN : N < 2 ^ 63 - 1) {prev : ℕ → Option ℕ} (hprev : Upoly.PrevOK prev) {F : PV Mono ℤ}
    (hF : MgOperand vc' mc' {v} N F) {fuel : ℕ} {draws rest : List ℕ} {b : Bool} (h : isSquarefreeAny vc false prev fuel F draws = some (b, rest)) :
    b = true ↔ val F ≠ 0 ∧ ∀ e : MvPolynomial Var ℤ, e * e ∣ val F → ∃ z : ℤ, e = C z :=
  (C61_is_squarefree_partial ho M (small_one v0 hN) hprev (tame_one (by simp) hprev) hF h).2

theorem C61_squarefreefactorize_univariate (ho : VarOrd vc) (M : MonoOrd vc' mc') {v : Var} (v0 : v ≠ 0) (hN : N < 2 ^ 63 - 1) {prev : ℕ → Option ℕ} (hprev : Upoly.PrevOK prev) {F : PV Mono ℤ}
    (hF : MgOperand vc' mc' {v} N F) {fuel : ℕ} {draws rest : List ℕ} {l : List (PV Mono ℤ × ℕ)} (h : squarefreeFactorizeAny vc false prev fuel vc' mc' F draws = some (l, rest)) :
    val F = 0 ∧ l = [] ∨ val F ≠ 0 ∧ ∃ c t, l = (c, 1) :: t ∧ SqfDecomp vc' mc' (val F) c t :=
  (C61_squarefreefactorize_partial ho M (small_one v0 hN) hprev (tame_one (by simp) hprev) hF h).2

theorem C62_squarefreebasis_univariate (ho : VarOrd vc) (M : MonoOrd vc' mc') {v : Var} (v0 : v ≠ 0) (hN : N < 2 ^ 63 - 1) {prev : ℕ → Option ℕ} (hprev : Upoly.PrevOK prev) {F : List (PV Mono ℤ)}
    (hF : ∀ f ∈ F, MgOperand vc' mc' {v} N f) {fuel : ℕ} {draws rest : List ℕ} {B : List BElem} (h : squarefreeBasisAny vc false prev fuel vc' mc' F draws = some (B, rest)) :
    (∀ b ∈ B, MgOperand vc' mc' {v} N b.1 ∧ Squarefree (val b.1) ∧ b.2 ≠ [] ∧ (b.2.map Prod.fst).Nodup ∧ ∀ x ∈ b.2, 0 < x.2 ∧ ∃ hx : x.1 < F.length, val F[x.1] ≠ 0) ∧ (B.Pairwise fun a b => IsRelPrime (val a.1) (val b.1)) ∧
      ∀ (k : ℕ) (hk : k < F.length), val F[k] ≠ 0 → ∃ c : ℤ, val F[k] = C c * (B.map fun b => val b.1 ^ ((b.2.filter fun x => x.1 = k).map Prod.snd).sum).prod :=
  (C62_squarefreebasis_partial ho M (small_one v0 hN) hprev (tame_one (by simp) hprev) hF h).2

/-- operands that meet the hypotheses, and a run: the squarefree decomposition of `3x²` -/
example : MgOperand varLess (grlexGt varLess) {1} 100 [(exXY 2 0, 3)] ∧ (100 : ℕ) < 2 ^ 63 - 1 ∧
    squarefreeFactorizeAny varLess false mgPrev 9 varLess (grlexGt varLess) [(exXY 2 0, 3)] [] = some ([([(exXY 0 0, 3)], 1), ([(exXY 1 0, 1)], 2)], []) :=
  ⟨MgOperand.of_list (grlex_ord varLess_ord) (by decide +kernel) (by decide +kernel), by norm_num, by decide +kernel⟩

end CLPoly
