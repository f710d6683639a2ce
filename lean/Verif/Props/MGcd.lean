import Verif.Gcd.Basis
import Verif.Gcd.BasisTags
import Verif.Gcd.SqfStrict
import Verif.Gcd.Diverge
import Verif.Upoly.FirstPrime
import Verif.Props.Polynomials

/-!
# Properties C59–C62: gcd, content, squarefree decomposition and squarefree bases of multivariate polynomials over `ZZ`

`PolyOK vc mc p` (Poly/OpsSpec.lean): `p` is in normal form for the order; `val p ∈ ℤ[x₁, x₂, …]` is the polynomial.  `IsGcd D F G` (Dense/Div.lean): `D` divides both and
every common divisor divides `D` — in the polynomial ring over ℤ, so integer contents count.  `Small V N` (Gcd/Cont.lean): `N < 2^63 − 1`, exponents up to `N` of the variables `V`
fit into the packed 64-bit exponent words, and the null variable (serial 0) is not in `V`.  `PrevOK prev`: the function that stands for `prev_prime_64` returns a smaller prime.
`draws`: the raw random numbers the run consumes; the theorems hold for every list of draws.

`strict`: `strict = false` is the code; the variant `strict = true` gives up when a trial division fails and the candidate has a coefficient that is a multiple of the modulus (the
product of two or more primes close to 2^64), because the code then goes on with a representation that may contain zero coefficients; every run of the variant is a run of the
code with the same result (first conjunct of the theorems).  `Tame strict V N prev` (Gcd/ZSpec.lean) is no condition for the variant; for the code it says that the event is
impossible because of the sizes: `(2^N · (N+1))^(|V|−1)` is at most `2^63` and at most the primes used (the code would need more than 10^17 rounds to leave the range above `2^63`).
So: for one variable without restriction (`C59_gcd_univariate`), for two variables up to degree 57, for three up to degree 26, and beyond that for every run without that event.
-/

namespace CLPoly
open Mono Mgcd Run MvPolynomial
open Dense (IsGcd)

/-- **specification**: operand of the functions of this file -/
structure MgOperand (vc : Var → Var → Bool) (mc : Mono → Mono → Bool) (V : Finset Var) (N : ℕ) (F : PV Mono ℤ) : Prop where
  ok : PolyOK vc mc F
  vars : (val F).vars ⊆ V
  deg : ∀ w, (val F).degreeOf w ≤ N

/-- **specification**: the squarefree decomposition `c · ∏ fᵢ^mᵢ` of a polynomial: an integer, and factors that are squarefree, pairwise coprime and without integer content;
every prime divisor of `fᵢ` has multiplicity exactly `mᵢ` in `F` -/
structure SqfDecomp (vc : Var → Var → Bool) (mc : Mono → Mono → Bool) (F : MvPolynomial Var ℤ) (c : PV Mono ℤ) (t : List (PV Mono ℤ × ℕ)) : Prop where
  cOk : PolyOK vc mc c
  const : ∃ z : ℤ, val c = C z
  ok : ∀ x ∈ t, PolyOK vc mc x.1
  pos : ∀ x ∈ t, 0 < x.2
  sqf : ∀ x ∈ t, Squarefree (val x.1)
  prim : ∀ x ∈ t, ∀ z : ℤ, (C z : MvPolynomial Var ℤ) ∣ val x.1 → IsUnit z
  mult : ∀ x ∈ t, ∀ P : MvPolynomial Var ℤ, Prime P → P ∣ val x.1 → P ^ x.2 ∣ F ∧ ¬ P ^ (x.2 + 1) ∣ F
  coprime : t.Pairwise fun a b => IsRelPrime (val a.1) (val b.1)
  prod : F = val c * (t.map fun x => val x.1 ^ x.2).prod

section
variable {vc vc' : Var → Var → Bool} {mc' : Mono → Mono → Bool} {V : Finset Var} {N : ℕ} {strict : Bool}

theorem MgOperand.lex (ho : VarOrd vc) (M : MonoOrd vc' mc') {F : PV Mono ℤ} (h : MgOperand vc' mc' V N F) : In vc V N (toLex vc F) ∧ val (toLex vc F) = val F :=
  toLex_in ho M h.ok h.vars h.deg

theorem MgOperand.in {F : PV Mono ℤ} (h : MgOperand vc (lexGt vc) V N F) : In vc V N F := ⟨h.ok, h.vars, h.deg⟩

/-! ## C59: the gcd -/

/-- `polynomial_GCD` of polynomials in a lexicographic order: what it returns is in normal form and a gcd, whatever the random numbers and the primes are.
Missing for the full statement: runs in which the event described at the top of this file happens. -/
theorem C59_gcd_lex_partial (ho : VarOrd vc) (hS : Small V N) {prev : ℕ → Option ℕ} (hprev : Upoly.PrevOK prev) (hT : Tame strict V N prev) {F G : PV Mono ℤ} (hF : MgOperand vc (lexGt vc) V N F)
    (hG : MgOperand vc (lexGt vc) V N G) {dfuel fuel : ℕ} {draws rest : List ℕ} {r : PV Mono ℤ} (h : gcdZ vc strict prev dfuel fuel F G draws = some (r, rest)) :
    gcdZ vc false prev dfuel fuel F G draws = some (r, rest) ∧ PolyOK vc (lexGt vc) r ∧ IsGcd (val r) (val F) (val G) := by
  have := gcdZ_spec' ho hS hprev hT dfuel fuel F G hF.in hG.in _ _ h
  exact ⟨gcdZ_code strict prev dfuel fuel F G _ _ h, this.1.ok, this.2⟩

/-- `gcd(F, G)` / `polynomial_GCD(F, G)` for polynomials in any monomial order (graded, custom variable order, …): computed in a lexicographic order and converted back -/
theorem C59_gcd_any_partial (ho : VarOrd vc) (M : MonoOrd vc' mc') (hS : Small V N) {prev : ℕ → Option ℕ} (hprev : Upoly.PrevOK prev) (hT : Tame strict V N prev) {F G : PV Mono ℤ}
    (hF : MgOperand vc' mc' V N F) (hG : MgOperand vc' mc' V N G) {fuel : ℕ} {draws rest : List ℕ} {r : PV Mono ℤ}
    (h : gcdAny vc strict prev fuel vc' mc' F G draws = some (r, rest)) :
    gcdAny vc false prev fuel vc' mc' F G draws = some (r, rest) ∧ PolyOK vc' mc' r ∧ IsGcd (val r) (val F) (val G) := by
  obtain ⟨a1, a2⟩ := hF.lex ho M
  obtain ⟨b1, b2⟩ := hG.lex ho M
  refine ⟨Sub.bind (gcdZ_code strict prev fuel fuel _ _) (fun _ => Sub.refl _) _ _ h, ?_⟩
  have : Post (gcdAny vc strict prev fuel vc' mc' F G) fun r => PolyOK vc' mc' r ∧ IsGcd (val r) (val F) (val G) :=
    (gcdZ_spec' ho hS hprev hT fuel fuel _ _ a1 b1).bind fun r hr => Post.ret (by
      obtain ⟨c1, c2⟩ := convert_val (lex_ord ho) M hr.1.ok
      refine ⟨c1, ?_⟩
      rw [c2, ← a2, ← b2]; exact hr.2)
  exact this _ _ h

/-- two runs (other random numbers, other primes) agree up to the sign -/
theorem C59_gcd_unique_partial (ho : VarOrd vc) (hS : Small V N) {prev prev' : ℕ → Option ℕ} (hprev : Upoly.PrevOK prev) (hprev' : Upoly.PrevOK prev') (hT : Tame strict V N prev) (hT' : Tame strict V N prev') {F G : PV Mono ℤ}
    (hF : MgOperand vc (lexGt vc) V N F) (hG : MgOperand vc (lexGt vc) V N G) {dfuel fuel dfuel' fuel' : ℕ} {draws rest draws' rest' : List ℕ} {r r' : PV Mono ℤ}
    (h : gcdZ vc strict prev dfuel fuel F G draws = some (r, rest)) (h' : gcdZ vc strict prev' dfuel' fuel' F G draws' = some (r', rest')) : val r' = val r ∨ val r' = - val r := by
  have a := (gcdZ_spec' ho hS hprev hT dfuel fuel F G hF.in hG.in _ _ h).2
  have b := (gcdZ_spec' ho hS hprev' hT' dfuel' fuel' F G hF.in hG.in _ _ h').2
  obtain ⟨u, hu⟩ := associated_of_dvd_dvd (b.2.2 _ a.1 a.2.1) (a.2.2 _ b.1 b.2.1)
  rcases unit_pm u.isUnit with e | e
  · left; rw [← hu, e, mul_one]
  · right; rw [← hu, e]; ring

/-- polynomials in one variable: no restriction on the run -/
theorem C59_gcd_univariate (ho : VarOrd vc) (v : Var) (v0 : v ≠ 0) (hN : N < 2 ^ 63 - 1) {prev : ℕ → Option ℕ} (hprev : Upoly.PrevOK prev)
    {F G : PV Mono ℤ} (hF : MgOperand vc (lexGt vc) {v} N F) (hG : MgOperand vc (lexGt vc) {v} N G) {dfuel fuel : ℕ}
    {draws rest : List ℕ} {r : PV Mono ℤ} (h : gcdZ vc false prev dfuel fuel F G draws = some (r, rest)) :
    PolyOK vc (lexGt vc) r ∧ IsGcd (val r) (val F) (val G) := by
  have hS : Small {v} N := ⟨by simpa using v0.symm, by have := hN; simp [capLex]; omega, hN⟩
  exact (C59_gcd_lex_partial ho hS hprev (tame_one (by simp) hprev) hF hG h).2

/-- zero operands and operands with a single term: the code always returns, with no random number drawn, and the result is a gcd (no size restriction) -/
theorem C59_gcd_shortcuts (ho : VarOrd vc) {F G : PV Mono ℤ} (hF : PolyOK vc (lexGt vc) F) (hG : PolyOK vc (lexGt vc) G) (hs : F.length ≤ 1 ∨ G.length ≤ 1)
    (prev : ℕ → Option ℕ) (dfuel fuel : ℕ) (draws : List ℕ) :
    ∃ r, gcdZ vc false prev dfuel (fuel + 1) F G draws = some (r, draws) ∧ PolyOK vc (lexGt vc) r ∧ IsGcd (val r) (val F) (val G) := by
  unfold gcdZ
  by_cases F0 : F = []
  · exact ⟨G, by rw [if_pos F0]; rfl, hG, by rw [F0, val_nil]; exact isUnit_gcd_left⟩
  rw [if_neg F0]
  by_cases G0 : G = []
  · exact ⟨F, by rw [if_pos G0]; rfl, hF, by rw [G0, val_nil]; exact IsGcd.symm' isUnit_gcd_left⟩
  have l1 := List.length_pos_iff.2 F0
  have l2 := List.length_pos_iff.2 G0
  have hs' : F.length = 1 ∨ G.length = 1 := by omega
  rw [if_neg G0, if_pos hs']
  obtain ⟨a, b⟩ := termGcd_spec ho hF hG F0 hs'
  exact ⟨_, rfl, a, b⟩

/-! ## C60: content and primitive part with respect to the main variable -/

/-- `cont(F)`: free of the main variable, divides `F`, and every divisor of `F` that is free of the main variable divides it -/
theorem C60_cont_partial (ho : VarOrd vc) (hS : Small V N) {prev : ℕ → Option ℕ} (hprev : Upoly.PrevOK prev) (hT : Tame strict V N prev) {F : PV Mono ℤ} (hF : MgOperand vc (lexGt vc) V N F)
    {fuel : ℕ} {draws rest : List ℕ} {c : PV Mono ℤ} (h : cont vc strict prev fuel F draws = some (c, rest)) :
    cont vc false prev fuel F draws = some (c, rest) ∧ PolyOK vc (lexGt vc) c ∧ pFirstVar F ∉ (val c).vars ∧ val c ∣ val F ∧
      ∀ e : MvPolynomial Var ℤ, pFirstVar F ∉ e.vars → e ∣ val F → e ∣ val c := by
  have := cont_spec ho hS hprev hT fuel hF.in _ _ h
  exact ⟨cont_code strict prev fuel F _ _ h, this.1.ok, this.2.free, this.2.dvd, this.2.max⟩

/-- `pp(F)` of a polynomial that is not a constant: `F` is the product of the result and a polynomial free of the main variable, and the only divisors of the result that are
free of the main variable are ±1 -/
theorem C60_pp_partial (ho : VarOrd vc) (hS : Small V N) {prev : ℕ → Option ℕ} (hprev : Upoly.PrevOK prev) (hT : Tame strict V N prev) {F : PV Mono ℤ} (hF : MgOperand vc (lexGt vc) V N F)
    (hn : ∀ z : ℤ, val F ≠ C z) {fuel : ℕ} {draws rest : List ℕ} {q : PV Mono ℤ} (h : pp vc strict prev fuel F draws = some (q, rest)) :
    pp vc false prev fuel F draws = some (q, rest) ∧ PolyOK vc (lexGt vc) q ∧ (∀ e : MvPolynomial Var ℤ, pFirstVar F ∉ e.vars → e ∣ val q → IsUnit e) ∧
      ∃ c : MvPolynomial Var ℤ, pFirstVar F ∉ c.vars ∧ val F = val q * c := by
  have M := lex_ord ho
  have h1 : isNumber F = false := by
    rw [Bool.eq_false_iff, Ne, isNumber_iff M hF.ok]; push Not; exact hn
  have := pp_spec ho hS hprev hT fuel hF.in (by rintro rfl; exact hn 0 (by rw [val_nil, C_0])) h1 _ _ h
  exact ⟨pp_code strict prev fuel F _ _ h, this.1.ok, this.2.1, this.2.2⟩

/-! ## C61: `is_squarefree` and `squarefreefactorize` -/

/-- `is_squarefree(F)` answers whether `F ≠ 0` has no square of a non-constant polynomial as a factor (squares of integers are not looked at) -/
theorem C61_is_squarefree_partial (ho : VarOrd vc) (M : MonoOrd vc' mc') (hS : Small V N) {prev : ℕ → Option ℕ} (hprev : Upoly.PrevOK prev) (hT : Tame strict V N prev) {F : PV Mono ℤ}
    (hF : MgOperand vc' mc' V N F) {fuel : ℕ} {draws rest : List ℕ} {b : Bool} (h : isSquarefreeAny vc strict prev fuel F draws = some (b, rest)) :
    isSquarefreeAny vc false prev fuel F draws = some (b, rest) ∧ (b = true ↔ val F ≠ 0 ∧ ∀ e : MvPolynomial Var ℤ, e * e ∣ val F → ∃ z : ℤ, e = C z) := by
  obtain ⟨a1, a2⟩ := hF.lex ho M
  refine ⟨isSquarefree_sub (gcdZ_code strict prev fuel fuel) _ _ _ _ _ h, ?_⟩
  have : b = true ↔ SqfUpToConst (val (Mgcd.toLex vc F)) := isSquarefree_spec ho hS (gcdZ_spec' ho hS hprev hT fuel fuel) fuel fuel _ a1 _ _ h
  rw [this, SqfUpToConst, a2]
  refine and_congr_right fun _ => forall₂_congr fun e _ => ⟨fun h => ⟨_, vars_eq_empty_iff_eq_C.1 h⟩, ?_⟩
  rintro ⟨z, rfl⟩; exact vars_C

theorem sqfDecomp_of {F : PV Mono ℤ} (ho : VarOrd vc) (M : MonoOrd vc' mc') {c : PV Mono ℤ} {t : List (PV Mono ℤ × ℕ)} {f : MvPolynomial Var ℤ} (f0 : f ≠ 0) (h : SqfOut vc V N f c t) :
    SqfDecomp vc' mc' f (polyConvert vc' mc' id c) (t.map fun x => (polyConvert vc' mc' id x.1, x.2)) := by
  have L := lex_ord ho
  have cv : ∀ x ∈ t, PolyOK vc' mc' (polyConvert vc' mc' id x.1) ∧ val (polyConvert vc' mc' id x.1) = val x.1 := fun x hx => convert_val L M (h.parts x hx).1.ok
  obtain ⟨c1, c2⟩ := convert_val L M h.inc.ok
  have al : ∀ {P : PV Mono ℤ × ℕ → Prop}, (∀ x ∈ t, P (polyConvert vc' mc' id x.1, x.2)) → ∀ y ∈ t.map fun x => (polyConvert vc' mc' id x.1, x.2), P y := by
    intro P hP y hy
    obtain ⟨x, hx, rfl⟩ := List.mem_map.1 hy
    exact hP x hx
  refine ⟨c1, ⟨_, by rw [c2]; exact vars_eq_empty_iff_eq_C.1 h.const⟩, al fun x hx => (cv x hx).1, al fun x hx => (h.parts x hx).2.1, al fun x hx => ?_, al fun x hx => ?_,
    al fun x hx => ?_, ?_, ?_⟩
  · rw [(cv x hx).2]; exact (h.parts x hx).2.2.1
  · rw [(cv x hx).2]
    intro z hz
    have := (h.parts x hx).2.2.2 _ vars_C hz
    rcases unit_pm this with e | e
    · rw [← C_1] at e; rw [C_injective _ _ e]; exact isUnit_one
    · rw [← C_1, ← C_neg] at e; rw [C_injective _ _ e]; exact isUnit_one.neg
  · rw [(cv x hx).2]
    intro P hP hd
    have e := h.mult x hx P hP hd
    rw [pow_dvd_iff_nu hP f0, pow_dvd_iff_nu hP f0]
    dsimp only
    omega
  · rw [List.pairwise_map]
    refine h.coprime.imp_of_mem fun {a b} ha hb hab => ?_
    rw [(cv a ha).2, (cv b hb).2]; exact hab
  · rw [c2, List.map_map, h.prod]
    congr 1
    refine congrArg List.prod (List.map_congr_left fun x hx => ?_)
    show _ = val (polyConvert vc' mc' id x.1) ^ x.2
    rw [(cv x hx).2]

/-- `squarefreefactorize(F)`: empty for `F = 0`; otherwise the list starts with an integer and the rest is the squarefree decomposition -/
theorem C61_squarefreefactorize_partial (ho : VarOrd vc) (M : MonoOrd vc' mc') (hS : Small V N) {prev : ℕ → Option ℕ} (hprev : Upoly.PrevOK prev) (hT : Tame strict V N prev) {F : PV Mono ℤ}
    (hF : MgOperand vc' mc' V N F) {fuel : ℕ} {draws rest : List ℕ} {l : List (PV Mono ℤ × ℕ)} (h : squarefreeFactorizeAny vc strict prev fuel vc' mc' F draws = some (l, rest)) :
    squarefreeFactorizeAny vc false prev fuel vc' mc' F draws = some (l, rest) ∧
      (val F = 0 ∧ l = [] ∨ val F ≠ 0 ∧ ∃ c t, l = (c, 1) :: t ∧ SqfDecomp vc' mc' (val F) c t) := by
  obtain ⟨a1, a2⟩ := hF.lex ho M
  refine ⟨Sub.bind (squarefreeFactorize_sub (gcdZ_code strict prev fuel fuel) _ _ _) (fun _ => Sub.refl _) _ _ h, ?_⟩
  have : Post (squarefreeFactorizeAny vc strict prev fuel vc' mc' F) fun l => (val F = 0 ∧ l = [] ∨ val F ≠ 0 ∧ ∃ c t, l = (c, 1) :: t ∧ SqfDecomp vc' mc' (val F) c t) :=
    (squarefreeFactorize_spec ho hS (gcdZ_spec' ho hS hprev hT fuel fuel) fuel fuel _ a1).bind fun l hl => Post.ret (by
      rcases hl with ⟨e, rfl⟩ | ⟨e, c, t, rfl, ht⟩
      · left; exact ⟨by rw [← a2, e, val_nil], rfl⟩
      · right
        have f0 : val F ≠ 0 := fun hz => e ((a1.ok.val_eq_zero (lex_ord ho)).1 (by rw [a2, hz]))
        refine ⟨f0, _, _, rfl, ?_⟩
        rw [a2] at ht
        exact sqfDecomp_of (F := F) ho M f0 ht)
  exact this _ _ h

/-! ## C62: `squarefreebasis` -/

/-- `squarefreebasis(F₀, F₁, …)`: the basis elements are squarefree and pairwise coprime, and each nonzero `F_k` is an integer times the product of the basis elements with the
multiplicities recorded in the second component; an element records at least one input, every input at most once, with a positive multiplicity, and only inputs that are not zero -/
theorem C62_squarefreebasis_partial (ho : VarOrd vc) (M : MonoOrd vc' mc') (hS : Small V N) {prev : ℕ → Option ℕ} (hprev : Upoly.PrevOK prev) (hT : Tame strict V N prev) {F : List (PV Mono ℤ)}
    (hF : ∀ f ∈ F, MgOperand vc' mc' V N f) {fuel : ℕ} {draws rest : List ℕ} {B : List BElem} (h : squarefreeBasisAny vc strict prev fuel vc' mc' F draws = some (B, rest)) :
    squarefreeBasisAny vc false prev fuel vc' mc' F draws = some (B, rest) ∧
      (∀ b ∈ B, MgOperand vc' mc' V N b.1 ∧ Squarefree (val b.1) ∧ b.2 ≠ [] ∧ (b.2.map Prod.fst).Nodup ∧ ∀ x ∈ b.2, 0 < x.2 ∧ ∃ hx : x.1 < F.length, val F[x.1] ≠ 0) ∧ (B.Pairwise fun a b => IsRelPrime (val a.1) (val b.1)) ∧
      ∀ (k : ℕ) (hk : k < F.length), val F[k] ≠ 0 → ∃ c : ℤ, val F[k] = C c * (B.map fun b => val b.1 ^ ((b.2.filter fun x => x.1 = k).map Prod.snd).sum).prod := by
  have L := lex_ord ho
  have hF' : ∀ f ∈ F.map (Mgcd.toLex vc), In vc V N f := by
    intro f hf
    obtain ⟨g, hg, rfl⟩ := List.mem_map.1 hf
    exact ((hF g hg).lex ho M).1
  refine ⟨Sub.bind (squarefreeBasis_sub (gcdZ_code strict prev fuel fuel) _ _) (fun _ => Sub.refl _) _ _ h, ?_⟩
  have : Post (squarefreeBasisAny vc strict prev fuel vc' mc' F) fun B => (∀ b ∈ B, MgOperand vc' mc' V N b.1 ∧ Squarefree (val b.1) ∧ b.2 ≠ [] ∧ (b.2.map Prod.fst).Nodup ∧ ∀ x ∈ b.2, 0 < x.2 ∧ ∃ hx : x.1 < F.length, val F[x.1] ≠ 0) ∧
      (B.Pairwise fun a b => IsRelPrime (val a.1) (val b.1)) ∧
      ∀ (k : ℕ) (hk : k < F.length), val F[k] ≠ 0 → ∃ c : ℤ, val F[k] = C c * (B.map fun b => val b.1 ^ ((b.2.filter fun x => x.1 = k).map Prod.snd).sum).prod :=
    ((squarefreeBasis_spec ho hS (gcdZ_spec' ho hS hprev hT fuel fuel) fuel hF').and (squarefreeBasis_rec ho hS (gcdZ_spec' ho hS hprev hT fuel fuel) fuel hF')).bind fun B hB => Post.ret (by
      obtain ⟨⟨b1, b2, b3⟩, b4⟩ := hB
      have cv : ∀ x ∈ B, PolyOK vc' mc' (polyConvert vc' mc' id x.1) ∧ val (polyConvert vc' mc' id x.1) = val x.1 := fun x hx => convert_val L M (b1 x hx).1.ok
      refine ⟨fun b hb => ?_, ?_, fun k hk h0 => ?_⟩
      · obtain ⟨x, hx, rfl⟩ := List.mem_map.1 hb
        dsimp only
        rw [(cv x hx).2]
        refine ⟨⟨(cv x hx).1, by rw [(cv x hx).2]; exact (b1 x hx).1.vars, by rw [(cv x hx).2]; exact (b1 x hx).1.deg⟩, (b1 x hx).2.1, (b4 x hx).1, (b4 x hx).2.1, fun y hy => ⟨((b4 x hx).2.2 y hy).1, ?_⟩⟩
        obtain ⟨f, hf, f0⟩ := ((b4 x hx).2.2 y hy).2
        rw [List.getElem?_map, Option.map_eq_some_iff] at hf
        obtain ⟨g, hg, rfl⟩ := hf
        obtain ⟨hk, rfl⟩ := List.getElem?_eq_some_iff.1 hg
        refine ⟨hk, fun hz => f0 ?_⟩
        have e := (hF F[y.1] (List.getElem_mem hk)).lex ho M
        exact (e.1.ok.val_eq_zero L).1 (by rw [e.2]; exact hz)
      · rw [List.pairwise_map]
        refine b2.imp_of_mem fun {a b} ha hb hab => ?_
        rw [(cv a ha).2, (cv b hb).2]; exact hab
      · have e := (hF F[k] (List.getElem_mem hk)).lex ho M
        obtain ⟨c, hc⟩ := b3 k (by simpa using hk) (by
          rw [List.getElem_map]; intro hz
          exact h0 (by rw [← e.2, hz, val_nil]))
        rw [List.getElem_map, e.2] at hc
        refine ⟨c, ?_⟩
        rw [hc, List.map_map]
        congr 1
        refine congrArg List.prod (List.map_congr_left fun x hx => ?_)
        show val x.1 ^ multOf k x.2 = val (polyConvert vc' mc' id x.1) ^ _
        rw [(cv x hx).2]; rfl)
  exact this _ _ h

/-! ## concrete cases -/

theorem MgOperand.of_list {vc : Var → Var → Bool} {mc : Mono → Mono → Bool} (M : MonoOrd vc mc) {p : PV Mono ℤ} (hp : PolyOK vc mc p)
    (h : ∀ t ∈ p, ∀ x ∈ t.1.data, x.1 ∈ V ∧ x.2 ≤ N) : MgOperand vc mc V N p := by
  have key : ∀ t ∈ p, ∀ w, E t.1.data w ≤ N ∧ (E t.1.data w ≠ 0 → w ∈ V) := by
    intro t ht w
    by_cases hw : ∃ x ∈ t.1.data, x.1 = w
    · obtain ⟨x, hx, rfl⟩ := hw
      rw [E_mem M.vo (hp.monos t ht).sorted hx]
      exact ⟨(h t ht x hx).2, fun _ => (h t ht x hx).1⟩
    · push Not at hw
      rw [E_not_mem hw]
      exact ⟨by positivity, fun h => absurd rfl h⟩
  by_cases p0 : p = []
  · subst p0; exact ⟨hp, by simp [val_nil], by simp [val_nil]⟩
  refine ⟨hp, fun w hw => ?_, fun w => ?_⟩
  · obtain ⟨t, ht, e⟩ := hp.exists_exp M p0 w
    refine (key t ht w).2 ?_
    rw [e]
    have : (val p).degreeOf w ≠ 0 := fun hz => degreeOf_zero_iff.1 hz hw
    exact_mod_cast this
  · obtain ⟨t, ht, e⟩ := hp.exists_exp M p0 w
    have := (key t ht w).1
    rw [e] at this
    exact_mod_cast this

end

/-- two variables up to degree 57, three up to degree 26, four up to degree 16 are tame -/
example : growB (2 - 1) 57 ≤ 2 ^ 63 ∧ growB (3 - 1) 26 ≤ 2 ^ 63 ∧ growB (4 - 1) 16 ≤ 2 ^ 63 := by decide +kernel

/-- sizes of the examples: exponents up to 100 of the variables 1 and 2 -/
theorem mgSmall : Small {1, 2} 100 := ⟨by decide, by decide +kernel, by norm_num⟩

/-- `(x + y)(x + 2)` -/
def mgF : PV Mono ℤ := [(exXY 2 0, 1), (exXY 1 1, 1), (exXY 1 0, 2), (exXY 0 1, 2)]
/-- `(x + y)(x + 3)` -/
def mgG : PV Mono ℤ := [(exXY 2 0, 1), (exXY 1 1, 1), (exXY 1 0, 3), (exXY 0 1, 3)]
/-- a function with the contract of `prev_prime_64` -/
def mgPrev : ℕ → Option ℕ := fun n => if 101 < n then some 101 else none

example : MgOperand varLess (lexGt varLess) {1, 2} 100 mgF ∧ MgOperand varLess (lexGt varLess) {1, 2} 100 mgG ∧ Upoly.PrevOK mgPrev := by
  refine ⟨MgOperand.of_list (lex_ord varLess_ord) (by decide +kernel) (by decide +kernel), MgOperand.of_list (lex_ord varLess_ord) (by decide +kernel) (by decide +kernel), fun n q h => ?_⟩
  unfold mgPrev at h
  split at h
  · simp only [Option.some.injEq] at h
    subst h
    exact ⟨‹_›, by norm_num⟩
  · simp at h

theorem run_bind_some {α β : Type} {m : Run α} {f : α → Run β} {s s' : List ℕ} {a : α} (h : m s = some (a, s')) : Run.bind m f s = f a s' := by simp [Run.bind, h]

/-- a run with two primes and four random numbers: the gcd is `x + y` -/
example : gcdZ varLess true mgPrev 20 6 mgF mgG [5, 6, 7, 8, 9] = some ([(exXY 1 0, 1), (exXY 0 1, 1)], [9]) := by
  unfold gcdZ
  rw [if_neg (by decide), if_neg (by decide), if_neg (by decide)]
  rw [run_bind_some (a := .inr (mgF, mgG)) (s' := [5, 6, 7, 8, 9]) rfl]
  dsimp only
  rw [run_bind_some (a := [(Mono.one, 1)]) (s' := [5, 6, 7, 8, 9]) (by decide +kernel)]
  rw [run_bind_some (a := [(Mono.one, 1)]) (s' := [5, 6, 7, 8, 9]) (by decide +kernel)]
  rw [run_bind_some (a := [(Mono.one, 1)]) (s' := [5, 6, 7, 8, 9]) (by decide +kernel)]
  rw [run_bind_some (a := mgF) (s' := [5, 6, 7, 8, 9]) (by decide +kernel)]
  rw [run_bind_some (a := mgG) (s' := [5, 6, 7, 8, 9]) (by decide +kernel)]
  rw [run_bind_some (a := [(Mono.one, 1)]) (s' := [5, 6, 7, 8, 9]) (by decide +kernel)]
  unfold primeLoop
  simp only [mgF, mgG]
  rw [if_neg (by decide +kernel), dif_pos Upoly.firstPrime_prime]
  decide +kernel

/-- `cont(6x²y + 4xy²) = 2y`, `pp = 3x² + 2xy` -/
example : cont varLess true mgPrev 9 [(exXY 2 1, 6), (exXY 1 2, 4)] [] = some ([(exXY 0 1, 2)], []) ∧
    pp varLess true mgPrev 9 [(exXY 2 1, 6), (exXY 1 2, 4)] [] = some ([(exXY 2 0, 3), (exXY 1 1, 2)], []) := by decide +kernel

/-- `3x²(y + 1)` in the graded order: not squarefree; the squarefree decomposition is `3 · (y + 1) · x²` -/
example : isSquarefreeAny varLess true mgPrev 9 [(exXY 2 1, 3), (exXY 2 0, 3)] [] = some (false, []) ∧
    squarefreeFactorizeAny varLess true mgPrev 9 varLess (grlexGt varLess) [(exXY 2 1, 3), (exXY 2 0, 3)] [] =
      some ([([(exXY 0 0, 3)], 1), ([(exXY 0 1, 1), (exXY 0 0, 1)], 1), ([(exXY 1 0, 1)], 2)], []) := by decide +kernel

instance : DecidableEq BElem := inferInstanceAs (DecidableEq (List (Mono × ℤ) × List (ℕ × ℕ)))

/-- the squarefree basis of `3x²(y + 1)`, `0`, `xy` -/
example : squarefreeBasisAny varLess true mgPrev 9 varLess (grlexGt varLess) [[(exXY 2 1, 3), (exXY 2 0, 3)], [], [(exXY 1 1, 1)]] [] =
    some ([([(exXY 0 1, 1), (exXY 0 0, 1)], [(0, 1)]), ([(exXY 1 0, 1)], [(0, 2), (2, 1)]), ([(exXY 0 1, 1)], [(2, 1)])], []) := by decide +kernel

/-- `−x − 1` -/
def mgN : PV Mono ℤ := [(exXY 1 0, -1), (exXY 0 0, -1)]
/-- `x + 1` -/
def mgX : PV Mono ℤ := [(exXY 1 0, 1), (exXY 0 0, 1)]
/-- the gcd of `−x − 1` and `x + 1` -/
theorem mg_mgN : gcdZ varLess true mgPrev 9 9 mgN mgX [] = some (mgX, []) := by
  unfold gcdZ
  rw [if_neg (by decide), if_neg (by decide), if_neg (by decide)]
  rw [run_bind_some (a := .inr (mgN, mgX)) (s' := []) rfl]
  dsimp only
  rw [run_bind_some (a := [(Mono.one, 1)]) (s' := []) (by decide +kernel)]
  rw [run_bind_some (a := [(Mono.one, 1)]) (s' := []) (by decide +kernel)]
  rw [run_bind_some (a := [(Mono.one, 1)]) (s' := []) (by decide +kernel)]
  rw [run_bind_some (a := mgN) (s' := []) (by decide +kernel)]
  rw [run_bind_some (a := mgX) (s' := []) (by decide +kernel)]
  rw [run_bind_some (a := [(Mono.one, 1)]) (s' := []) (by decide +kernel)]
  unfold primeLoop
  simp only [mgN, mgX]
  rw [if_neg (by decide +kernel), dif_pos Upoly.firstPrime_prime]
  decide +kernel
/-- **finding**: the basis may contain a unit.  The basis of `−x − 1, x + 1` is `[−1, x + 1]`: the factor `−1` stays as an element with its own list of occurrences. -/
theorem C62_unit_element : squarefreeBasis varLess (gcdZ varLess true mgPrev 9 9) 9 [mgN, mgX] [] = some ([([(exXY 0 0, -1)], [(0, 1)]), (mgX, [(0, 1), (1, 1)])], []) := by
  unfold squarefreeBasis basisLoop
  rw [run_bind_some (a := [([(exXY 0 0, 1)], 1), (mgN, 1)]) (s' := []) (by decide +kernel), if_neg (by decide)]
  rw [run_bind_some (a := ([], [(mgN, [(0,1)])])) (s' := []) (by decide +kernel)]
  unfold basisLoop
  rw [run_bind_some (a := [([(exXY 0 0, 1)], 1), (mgX, 1)]) (s' := []) (by decide +kernel), if_neg (by decide)]
  unfold splitParts
  simp only [List.tail, List.nil_append]
  unfold splitPart
  rw [run_bind_some (a := ([([(exXY 0 0, -1)], [(0, 1)])], [(mgX, [(0, 1), (1, 1)])])) (s' := [])]
  · rfl
  rw [run_bind_some (a := ([([(exXY 0 0, -1)], [(0, 1)])], [(mgX, [(0, 1), (1, 1)])],[(exXY 0 0, 1)])) (s' := [])]
  · decide +kernel
  rw [run_bind_some mg_mgN]
  decide +kernel

/-! ## C100 -/

/-- C100 is false.  For `F = 2x + N`, `N = (2^64 - 59)(2^64 - 83)` the product of the first two primes of the loop, `polynomial_GCD(F, F)` of multivariate polynomials does not return,
whatever the variable `x`, the variable order, the random evaluation points (`draws`) and the later primes are; `dfuel` and `fuel` bound the number of steps. -/
theorem C100_gcd_never_returns_refuted {vc : Var → Var → Bool} (ho : VarOrd vc) {x : Var} (x0 : x ≠ 0) {prev : ℕ → Option ℕ} (hprev : Upoly.PrevOK prev)
    (h2 : prev (2 ^ 64 - 59) = some (2 ^ 64 - 83)) (dfuel fuel : ℕ) (draws : List ℕ) {F : PV Mono ℤ}
    (hF : F = [(⟨[(x, 1)], 1⟩, 2), (Mono.one, (2 ^ 64 - 59) * (2 ^ 64 - 83))]) : gcdZ vc false prev dfuel fuel F F draws = none := by
  have e : lostM x = F := by
    rw [hF, show ((2 ^ 64 - 59) * (2 ^ 64 - 83) : ℤ) = Upoly.lostN by decide +kernel]
    rfl
  rw [← e]
  exact lost_gcdZ ho x0 hprev (by rw [show Upoly.firstPrime = 2 ^ 64 - 59 by decide, h2]; decide) dfuel fuel draws

/-- the operand is like any other: one variable, degree 1; by C59 the only results could be `F` and `-F` -/
example : ∃ F : PV Mono ℤ, F = [(⟨[(3, 1)], 1⟩, 2), (Mono.one, (2 ^ 64 - 59) * (2 ^ 64 - 83))] ∧ MgOperand varLess (lexGt varLess) {3} 1 F ∧
    val F = C 2 * X 3 + C ((2 ^ 64 - 59) * (2 ^ 64 - 83)) := by
  have hi := up_in varLess_ord 3 Upoly.lostF_is (nat1 2 Upoly.lostN)
  have hv := (Factor.upolyToPoly_spec varLess_ord 3 Upoly.lostF_is).2
  refine ⟨lostM 3, ?_, ⟨hi.ok, hi.vars, hi.deg⟩, ?_⟩
  · rw [show ((2 ^ 64 - 59) * (2 ^ 64 - 83) : ℤ) = Upoly.lostN by decide +kernel]; rfl
  · rw [show ((2 ^ 64 - 59) * (2 ^ 64 - 83) : ℤ) = Upoly.lostN by decide +kernel]
    refine hv.trans ?_
    rw [map_add, map_mul, Factor.emb_C, Factor.emb_C, Factor.emb_X]

end CLPoly
