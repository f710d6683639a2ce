import Verif.Gcd.Defs
import Verif.Upoly.FirstPrime

/-! # Evaluation of concrete runs of the multivariate gcd, prime by prime -/

namespace CLPoly
namespace Mgcd
open Mono Run

theorem run_bind_some {α β : Type} {m : Run α} {f : α → Run β} {s s' : List ℕ} {a : α} (h : m s = some (a, s')) : Run.bind m f s = f a s' := by simp [Run.bind, h]

variable {vc : Var → Var → Bool} {strict : Bool} {prev : ℕ → Option ℕ} {gcd : PV Mono ℤ → PV Mono ℤ → Run (PV Mono ℤ)} {dfuel fuel : ℕ} {F G cg lg : PV Mono ℤ}

/-- an image of smaller degree than before -/
theorem primeLoop_first {f g : Mono × ℤ} {s : St} {draws draws' : List ℕ} {q : ℕ} (hp : s.prime.Prime) {Pd : PV Mono (ZMod s.prime) × Int} (hF : F.head? = some f) (hG : G.head? = some g)
    (h1 : ¬ (Int.tmod f.2 s.prime = 0 ∨ Int.tmod g.2 s.prime = 0))
    (h2 : haveI := Fact.mk hp; gcdP s.prime vc dfuel dfuel (polyMod s.prime F) (polyMod s.prime G) (polyMod s.prime lg) s.d draws = some (some Pd, draws'))
    (h3 : Pd.2 < s.d) (h4 : prev s.prime = some q) :
    primeLoop vc strict prev gcd dfuel F G cg lg (fuel + 1) s draws = primeLoop vc strict prev gcd dfuel F G cg lg fuel ⟨q, liftFirst s.prime Pd.1, Pd.2, s.prime⟩ draws' := by
  match F, G, hF, hG with
  | f' :: F', g' :: G', hF, hG =>
    cases hF
    cases hG
    conv_lhs => unfold primeLoop
    dsimp only
    rw [if_neg h1, dif_pos hp, run_bind_some h2]
    dsimp only
    rw [if_pos h3, nextPrime]
    dsimp only
    rw [h4]

/-- the image is stable and the trial divisions succeed -/
theorem primeLoop_last {f g : Mono × ℤ} {s : St} {draws draws' draws'' : List ℕ} (hp : s.prime.Prime) {Pd : PV Mono (ZMod s.prime) × Int} {r : PV Mono ℤ} (hF : F.head? = some f) (hG : G.head? = some g)
    (h1 : ¬ (Int.tmod f.2 s.prime = 0 ∨ Int.tmod g.2 s.prime = 0))
    (h2 : haveI := Fact.mk hp; gcdP s.prime vc dfuel dfuel (polyMod s.prime F) (polyMod s.prime G) (polyMod s.prime lg) s.d draws = some (some Pd, draws'))
    (h3 : ¬ Pd.2 < s.d) (h4 : crtStep vc s.prime s.PP s.pout Pd.1 = s.pout)
    (h5 : finish vc strict gcd dfuel F G cg s.pout (s.PP * s.prime) draws' = some (.inl r, draws'')) :
    primeLoop vc strict prev gcd dfuel F G cg lg (fuel + 1) s draws = some (r, draws'') := by
  match F, G, hF, hG with
  | f' :: F', g' :: G', hF, hG =>
    cases hF
    cases hG
    unfold primeLoop
    dsimp only
    rw [if_neg h1, dif_pos hp, run_bind_some h2]
    dsimp only
    rw [if_neg h3, if_pos h4, h4, run_bind_some h5]
    rfl

end Mgcd
end CLPoly
