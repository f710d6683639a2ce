import Verif.Gcd.Defs

/-! # Every run of the strict gcd is a run of the code -/

namespace CLPoly
namespace Mgcd
open Mono Run

variable {vc : Var → Var → Bool} {g g' : PV Mono ℤ → PV Mono ℤ → Run (PV Mono ℤ)}

theorem contLoop_sub (h : ∀ a b, Sub (g a b) (g' a b)) (v : Var) (deg : Int) : ∀ (F : PV Mono ℤ) (d : Int) (c tmp : PV Mono ℤ), Sub (contLoop g v deg F d c tmp) (contLoop g' v deg F d c tmp) := by
  intro F
  induction F with
  | nil => intro d c tmp; exact Sub.ite (Sub.refl _) (h _ _)
  | cons t F ih =>
    intro d c tmp
    exact Sub.ite (ih _ _ _) (Sub.bind (Sub.ite (Sub.refl _) (h _ _)) fun _ => ih _ _ _)

theorem contWith_sub (h : ∀ a b, Sub (g a b) (g' a b)) (F : PV Mono ℤ) : Sub (contWith g F) (contWith g' F) := contLoop_sub h _ _ _ _ _ _

theorem equalize_sub (h : ∀ a b, Sub (g a b) (g' a b)) : ∀ (fuel : ℕ) (F G : PV Mono ℤ), Sub (equalize vc g fuel F G) (equalize vc g' fuel F G) := by
  intro fuel
  induction fuel with
  | zero => intro F G; exact Sub.refl _
  | succ fuel ih =>
    intro F G
    exact Sub.ite (Sub.refl _) (Sub.ite (Sub.refl _) (Sub.ite (Sub.bind (contWith_sub h _) fun _ => ih _ _) (Sub.bind (contWith_sub h _) fun _ => ih _ _)))

theorem finish_sub (h : ∀ a b, Sub (g a b) (g' a b)) (dfuel : ℕ) (F G cg pout : PV Mono ℤ) (PP : ℤ) : Sub (finish vc true g dfuel F G cg pout PP) (finish vc false g' dfuel F G cg pout PP) := by
  unfold finish
  refine Sub.ite (Sub.bind (contWith_sub h _) fun c => Sub.bind (Sub.refl _) fun q => Sub.bind (Sub.refl _) fun r1 => Sub.bind (Sub.refl _) fun r2 => Sub.ite (Sub.refl _) ?_) (Sub.refl _)
  rw [if_neg (show ¬ (false && !(q.all fun t => decide (¬ PP ∣ t.2))) = true by simp)]
  by_cases hc : (true && !(q.all fun t => decide (¬ PP ∣ t.2))) = true
  · rw [if_pos hc]; exact Sub.fail _
  · rw [if_neg hc]; exact Sub.refl _

theorem nextPrime_sub (prev : ℕ → Option ℕ) {k k' : St → Run (PV Mono ℤ)} (h : ∀ s, Sub (k s) (k' s)) (s : St) : Sub (nextPrime prev k s) (nextPrime prev k' s) := by
  unfold nextPrime
  cases prev s.prime with
  | none => exact Sub.refl _
  | some q => exact h _

theorem primeLoop_sub (h : ∀ a b, Sub (g a b) (g' a b)) (prev : ℕ → Option ℕ) (dfuel : ℕ) (F G cg lg : PV Mono ℤ) : ∀ (fuel : ℕ) (s : St),
    Sub (primeLoop vc true prev g dfuel F G cg lg fuel s) (primeLoop vc false prev g' dfuel F G cg lg fuel s) := by
  intro fuel
  induction fuel with
  | zero => intro s; exact Sub.refl _
  | succ fuel ih =>
    intro s
    unfold primeLoop
    split
    · refine Sub.ite (nextPrime_sub prev ih s) ?_
      split
      · refine Sub.bind (Sub.refl _) fun o => ?_
        match o with
        | none => exact nextPrime_sub prev ih s
        | some Pd =>
          refine Sub.ite (nextPrime_sub prev ih _) (Sub.ite (Sub.bind (finish_sub h _ _ _ _ _ _) fun o => ?_) (nextPrime_sub prev ih _))
          match o with
          | .inl r => exact Sub.refl _
          | .inr q => exact nextPrime_sub prev ih _
      · exact Sub.refl _
    · exact Sub.refl _

/-- every run of the strict version is a run of the code -/
theorem gcdZ_strict (prev : ℕ → Option ℕ) (dfuel : ℕ) : ∀ (fuel : ℕ) (F G : PV Mono ℤ), Sub (gcdZ vc true prev dfuel fuel F G) (gcdZ vc false prev dfuel fuel F G) := by
  intro fuel
  induction fuel with
  | zero => intro F G; exact Sub.refl _
  | succ fuel ih =>
    intro F G
    unfold gcdZ
    refine Sub.ite (Sub.refl _) (Sub.ite (Sub.refl _) (Sub.ite (Sub.refl _) (Sub.bind (equalize_sub ih _ _ _) fun e => ?_)))
    match e with
    | .inl r => exact Sub.refl _
    | .inr FG =>
      exact Sub.bind (contWith_sub ih _) fun Fc => Sub.bind (contWith_sub ih _) fun Gc => Sub.bind (ih _ _) fun cg => Sub.bind (Sub.refl _) fun F1 =>
        Sub.bind (Sub.refl _) fun G1 => Sub.bind (ih _ _) fun lg => primeLoop_sub ih prev dfuel _ _ _ _ _ _

end Mgcd
end CLPoly
