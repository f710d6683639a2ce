import Verif.Gcd.SqfDefs
import Verif.Gcd.Strict
import Verif.Gcd.ZSpec
import Verif.Poly.ConvertSpec

/-! # Strict runs of the functions built on the gcd, `pp`, and the conversion to the lexicographic order -/

namespace CLPoly
namespace Mgcd
open Mono Run MvPolynomial
open Dense (IsGcd)

section
variable {vc : Var → Var → Bool} {g g' : PV Mono ℤ → PV Mono ℤ → Run (PV Mono ℤ)}

theorem isSquarefree_sub (h : ∀ a b, Sub (g a b) (g' a b)) (dfuel : ℕ) : ∀ (fuel : ℕ) (F : PV Mono ℤ), Sub (isSquarefree vc g dfuel fuel F) (isSquarefree vc g' dfuel fuel F) := by
  intro fuel
  induction fuel with
  | zero => intro F; exact Sub.refl _
  | succ fuel ih =>
    intro F
    exact Sub.ite (Sub.refl _) (Sub.ite (Sub.refl _) (Sub.bind (contWith_sub h _) fun c => Sub.bind (ih _) fun b =>
      Sub.ite (Sub.bind (Sub.refl _) fun _ => Sub.bind (h _ _) fun _ => Sub.refl _) (Sub.refl _)))

theorem sqfLoop_sub (h : ∀ a b, Sub (g a b) (g' a b)) (dfuel : ℕ) : ∀ (fuel i : ℕ) (f f3 : PV Mono ℤ) (lst : List (PV Mono ℤ × ℕ)),
    Sub (sqfLoop vc g dfuel fuel i f f3 lst) (sqfLoop vc g' dfuel fuel i f f3 lst) := by
  intro fuel
  induction fuel with
  | zero => intro i f f3 lst; exact Sub.refl _
  | succ fuel ih =>
    intro i f f3 lst
    exact Sub.bind (h _ _) fun f1 => Sub.ite (Sub.refl _) (Sub.bind (Sub.refl _) fun f2 =>
      Sub.ite (Sub.ite (Sub.bind (Sub.refl _) fun _ => ih _ _ _ _) (ih _ _ _ _)) (ih _ _ _ _))

theorem squarefreeFactorize_sub (h : ∀ a b, Sub (g a b) (g' a b)) (dfuel : ℕ) : ∀ (fuel : ℕ) (F : PV Mono ℤ),
    Sub (squarefreeFactorize vc g dfuel fuel F) (squarefreeFactorize vc g' dfuel fuel F) := by
  intro fuel
  induction fuel with
  | zero => intro F; exact Sub.refl _
  | succ fuel ih =>
    intro F
    exact Sub.ite (Sub.refl _) (Sub.ite (Sub.refl _) (Sub.bind (contWith_sub h _) fun c => Sub.bind (Sub.refl _) fun _ => Sub.bind (ih _) fun _ => sqfLoop_sub h _ _ _ _ _ _))

theorem splitPart_sub (h : ∀ a b, Sub (g a b) (g' a b)) (dfuel i m : ℕ) : ∀ (l : List BElem) (t : PV Mono ℤ), Sub (splitPart vc g dfuel i m l t) (splitPart vc g' dfuel i m l t) := by
  intro l
  induction l with
  | nil => intro t; exact Sub.refl _
  | cons b l ih =>
    intro t
    exact Sub.bind (h _ _) fun F1 => Sub.ite (Sub.bind (ih _) fun _ => Sub.refl _) (Sub.bind (Sub.refl _) fun _ => Sub.bind (Sub.refl _) fun _ =>
      Sub.ite (Sub.refl _) (Sub.bind (ih _) fun _ => Sub.refl _))

theorem splitParts_sub (h : ∀ a b, Sub (g a b) (g' a b)) (dfuel i : ℕ) : ∀ (hs : List (PV Mono ℤ × ℕ)) (l l' : List BElem),
    Sub (splitParts vc g dfuel i hs l l') (splitParts vc g' dfuel i hs l l') := by
  intro hs
  induction hs with
  | nil => intro l l'; exact Sub.refl _
  | cons x hs ih => intro l l'; exact Sub.bind (splitPart_sub h _ _ _ _ _) fun _ => ih _ _

theorem basisLoop_sub (h : ∀ a b, Sub (g a b) (g' a b)) (dfuel : ℕ) : ∀ (Fs : List (PV Mono ℤ)) (i : ℕ) (l : List BElem), Sub (basisLoop vc g dfuel i Fs l) (basisLoop vc g' dfuel i Fs l) := by
  intro Fs
  induction Fs with
  | nil => intro i l; exact Sub.refl _
  | cons F Fs ih => intro i l; exact Sub.bind (squarefreeFactorize_sub h _ _ _) fun _ => Sub.ite (ih _ _) (Sub.bind (splitParts_sub h _ _ _ _ _) fun _ => ih _ _)

theorem squarefreeBasis_sub (h : ∀ a b, Sub (g a b) (g' a b)) (dfuel : ℕ) (F : List (PV Mono ℤ)) : Sub (squarefreeBasis vc g dfuel F) (squarefreeBasis vc g' dfuel F) := basisLoop_sub h _ _ _ _

/-- every run of the variant is a run of the code -/
theorem gcdZ_code (strict : Bool) (prev : ℕ → Option ℕ) (dfuel fuel : ℕ) (F G : PV Mono ℤ) : Sub (gcdZ vc strict prev dfuel fuel F G) (gcdZ vc false prev dfuel fuel F G) := by
  cases strict
  · exact Sub.refl _
  · exact gcdZ_strict prev dfuel fuel F G

theorem cont_code (strict : Bool) (prev : ℕ → Option ℕ) (fuel : ℕ) (F : PV Mono ℤ) : Sub (cont vc strict prev fuel F) (cont vc false prev fuel F) := contWith_sub (gcdZ_code strict prev fuel fuel) F

theorem pp_code (strict : Bool) (prev : ℕ → Option ℕ) (fuel : ℕ) (F : PV Mono ℤ) : Sub (pp vc strict prev fuel F) (pp vc false prev fuel F) :=
  Sub.ite (Sub.refl _) (Sub.ite (Sub.refl _) (Sub.bind (cont_code strict prev fuel F) fun _ => Sub.refl _))

end

section
variable {vc : Var → Var → Bool} {V : Finset Var} {N : ℕ} {strict : Bool}

/-- the quotient of the division with remainder by a divisor -/
theorem quoRemZ_dvd (ho : VarOrd vc) (hS : Small V N) {p q : PV Mono ℤ} (hp : In vc V N p) (p0 : val p ≠ 0) (hq : In vc V N q) (hd : val q ∣ val p)
    {fuel : ℕ} {r : PV Mono ℤ × PV Mono ℤ} (hr : quoRemZ vc fuel p q = some r) : In vc V N r.1 ∧ val p = val r.1 * val q := by
  have M := lex_ord ho
  have q0 : q ≠ [] := by rintro rfl; rw [val_nil, zero_dvd_iff] at hd; exact p0 hd
  obtain ⟨n, Q, R', h1, h2, h3, h4⟩ := polyDivRem_test (C := codeLex ℤ vc) (divc := coefDivZ) M coefDivZ_ok hp.ok hq.ok q0
    (fun h2 => plan_lex ho hp.ok hq.ok h2 ⟨hp.deg63 M hS, hq.deg63 M hS⟩)
  have h' : polyDivRem vc (codeLex ℤ vc) coefDivZ fuel p q = some (some r) := Option.join_eq_some_iff.1 hr
  have := polyDivRem_mono h' n
  rw [h1 (fuel + n) (by omega), Option.some.injEq, Option.some.injEq] at this
  subst this
  obtain ⟨k, hk⟩ := hd
  obtain ⟨h, g1, g2⟩ := GB.exists_polyOK M k
  have he : val p = val h * val q := by rw [hk, g2, mul_comm]
  obtain ⟨rfl, _⟩ := h4 h g1 he
  exact ⟨hp.of_dvd p0 g1 ⟨val q, he⟩, he⟩

theorem cont_spec (ho : VarOrd vc) (hS : Small V N) {prev : ℕ → Option ℕ} (hprev : Upoly.PrevOK prev) (hT : Tame strict V N prev) (fuel : ℕ) {F : PV Mono ℤ} (hF : In vc V N F) :
    Post (cont vc strict prev fuel F) fun c => In vc V N c ∧ IsCont (pFirstVar F) (val F) (val c) := contWith_spec ho hS (gcdZ_spec' ho hS hprev hT fuel fuel) hF

theorem pp_spec (ho : VarOrd vc) (hS : Small V N) {prev : ℕ → Option ℕ} (hprev : Upoly.PrevOK prev) (hT : Tame strict V N prev) (fuel : ℕ) {F : PV Mono ℤ} (hF : In vc V N F) (F0 : F ≠ []) (hn : isNumber F = false) :
    Post (pp vc strict prev fuel F) fun q => In vc V N q ∧ PrimWrt (pFirstVar F) (val q) ∧ ∃ c, pFirstVar F ∉ c.vars ∧ val F = val q * c := by
  have M := lex_ord ho
  have F0' : val F ≠ 0 := fun e => F0 ((hF.ok.val_eq_zero M).1 e)
  unfold pp
  rw [if_neg F0, if_neg (by rw [hn]; simp)]
  refine (cont_spec ho hS hprev hT fuel hF).bind fun c hc => ?_
  refine (Post.lift fun q hq => quoRemZ_dvd ho hS hF F0' hc.1 hc.2.dvd hq).bind fun r hr => Post.ret ?_
  exact ⟨hr.1, hc.2.prim F0' hr.2, val c, hc.2.free, hr.2⟩

variable {vc' : Var → Var → Bool} {mc' : Mono → Mono → Bool}

/-- conversion between orders keeps the value -/
theorem convert_val {vc₁ vc₂ : Var → Var → Bool} {mc₁ mc₂ : Mono → Mono → Bool} (M : MonoOrd vc₁ mc₁) (M' : MonoOrd vc₂ mc₂) {p : PV Mono ℤ} (hp : PolyOK vc₁ mc₁ p) :
    PolyOK vc₂ mc₂ (polyConvert vc₂ mc₂ id p) ∧ val (polyConvert vc₂ mc₂ id p) = val p := by
  obtain ⟨a, b⟩ := polyConvert_spec M M' hp id rfl
  exact ⟨a, by ext s; exact b s⟩

theorem toLex_in (ho : VarOrd vc) (M' : MonoOrd vc' mc') {F : PV Mono ℤ} (hF : PolyOK vc' mc' F) (hv : (val F).vars ⊆ V) (hd : ∀ w, (val F).degreeOf w ≤ N) :
    In vc V N (toLex vc F) ∧ val (toLex vc F) = val F := by
  obtain ⟨a, b⟩ := convert_val M' (lex_ord ho) hF
  exact ⟨⟨a, by rw [show toLex vc F = polyConvert vc (lexGt vc) id F from rfl, b]; exact hv, by rw [show toLex vc F = polyConvert vc (lexGt vc) id F from rfl, b]; exact hd⟩, b⟩

end
end Mgcd
end CLPoly
