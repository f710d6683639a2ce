import Verif.Charset.Wu
import Verif.Props.MGcd

/-!
# Properties C68–C71: basic sets, characteristic sets, Wu's decomposition

Vocabulary (Charset/Basset.lean): `IsMain vc f v` – `v` is the main variable of `f`; `RankLt` – lower rank; `RedTo` – reduced; `AscChain` – ascending chain; `IsInit` – initial;
`ChainLt` – lower rank of chains.  `idl P` is the ideal generated by `P`, `inits vc C` the set of products of initials of `C` (Charset/Chain.lean).  `PolyOK vc (lexGt vc) p`, short `LP vc p`:
normal form for the lex order of `vc`; `Good vc F`: all elements of `F` are in normal form and not zero.  `gt` orders the coefficients (the order of `std::set`), `Lawful` says it is a strict total order.

`charset … true …` is the variant of the code that gives up (`some none`) when an operand of a pseudo-division does not fit the packed representation; the theorems about it are marked `_partial`,
and say in each case that the result is the one the code computes.
-/

namespace CLPoly
open Mono Mgcd MvPolynomial Charset

section
variable {R : Type*} [CommRing R] [DecidableEq R] {vc : Var → Var → Bool}

/-! ## C68: ranks and basic sets -/

/-- `rankcompare` compares ranks, `is_reduced` (of a non-constant polynomial) tells whether the degree in the main variable of the second operand is lower -/
theorem C68_rankcompare (ho : VarOrd vc) {p q : PV Mono R} (hp : LP vc p) (hq : LP vc q) :
    (rankLess vc p q = true ↔ RankLt vc (val p) (val q)) ∧ (p ≠ [] → (isReduced vc p q = true ↔ (val p).vars ≠ ∅ ∧ RedTo vc (val p) (val q))) :=
  ⟨rankLess_iff ho hp hq, fun h => isReduced_iff ho hp hq h⟩

/-- `basset(F)` of non-zero polynomials returns a list of elements of `F`: if `F` has a constant it is one constant; otherwise it is an ascending chain with respect to which no element of `F` is
reduced, and no other ascending chain of elements of `F` has lower rank -/
theorem C68_basset (ho : VarOrd vc) {F : List (PV Mono R)} (hF : Good vc F) :
    ∃ B, (∀ n ≥ F.length, bassetLoop vc n F = some B) ∧ (∀ b ∈ B, b ∈ F) ∧
      ((∃ f ∈ F, (val f).vars = ∅) → ∃ c, B = [c] ∧ (val c).vars = ∅) ∧
      ((∀ f ∈ F, (val f).vars ≠ ∅) → AscChain vc (B.map val) ∧ (∀ f ∈ F, ∃ b ∈ B, ¬ RedTo vc (val f) (val b)) ∧
        ∀ D : List (PV Mono R), (∀ d ∈ D, d ∈ F) → AscChain vc (D.map val) → ¬ ChainLt vc (D.map val) (B.map val)) := by
  obtain ⟨B, e, h⟩ := bassetLoop_spec ho _ F hF le_rfl
  refine ⟨B, fun n hn => bassetLoop_mono hn e, h.sub, ?_, fun hnum => ⟨?_, ?_, fun D hD hA => bassetLoop_min ho _ F B hF e D hD hA⟩⟩
  · rintro ⟨f, hf, hc⟩
    obtain ⟨c, rfl, hn⟩ := h.num f hf ((num_iff ho (hF f hf).1).2 hc)
    exact ⟨c, rfl, (num_iff ho (hF c (h.sub c (by simp))).1).1 hn⟩
  · rcases h.chain with ⟨c, rfl, hn⟩ | h'
    · have hc := h.sub c (by simp)
      exact absurd ((num_iff ho (hF c hc).1).1 hn) (hnum c hc)
    · exact h'
  · intro f hf
    obtain ⟨b, hb, hr⟩ := h.max f hf
    refine ⟨b, hb, fun hred => ?_⟩
    rw [(isReduced_iff ho (hF f hf).1 (hF b (h.sub b hb)).1 (hF f hf).2).2 ⟨hnum f hf, hred⟩] at hr
    exact absurd hr (by simp)

/-- **the code does not do what one expects**: with the zero polynomial among the elements, `basset` never returns, whatever the other elements are -/
theorem C68_basset_zero_diverges {F : List (PV Mono R)} (h : [] ∈ F) : ∀ n, bassetLoop vc n F = none := fun n => bassetLoop_zero n F h

end

section
variable {R : Type*} [CommRing R] [IsDomain R] [DecidableEq R] {vc : Var → Var → Bool} {gt : R → R → Bool}

/-! ## C69: characteristic sets -/

/-- whatever the checked `charset(P)` returns for non-zero polynomials is what the code returns: elements of the ideal of `P`, either a single non-zero constant or an ascending chain such that
all elements of `P` have pseudo-remainder zero with respect to it, and a product of initials of the chain times any element of `P` lies in the ideal of the chain -/
theorem C69_charset_partial (ho : VarOrd vc) (hg : Lawful (fun _ : R => True) gt) {P C : List (PV Mono R)} (hP : Good vc P) (hne : P ≠ []) {n : ℕ}
    (h : charset vc true gt n P = some (some C)) :
    charset vc false gt n P = some (some C) ∧ (∀ c ∈ C, LP vc c ∧ val c ≠ 0 ∧ val c ∈ idl (P.map val)) ∧
      ((∃ c, C = [c] ∧ (val c).vars = ∅) ∨ C ≠ [] ∧ AscChain vc (C.map val) ∧
        ∀ p ∈ P, chainRem vc false C p = some [] ∧ ∃ m ∈ inits vc (C.map val), m * val p ∈ idl (C.map val)) := by
  have hc := charset_spec ho hg hP hne h
  refine ⟨charset_code h, fun c hcm => ⟨(hc.ok c hcm).1, fun e => (hc.ok c hcm).2 (((hc.ok c hcm).1.val_eq_zero (lex_ord ho)).1 e), hc.sub c hcm⟩, ?_⟩
  rcases hc.alt with ⟨c, rfl, hn⟩ | ⟨h1, h2, h3⟩
  · exact .inl ⟨c, rfl, (num_iff ho (hc.ok c (by simp)).1).1 hn⟩
  right
  refine ⟨h1, h2, fun p hp => ⟨?_, h3 _ (List.mem_map.2 ⟨p, hp, rfl⟩)⟩⟩
  rcases hc.rem with ⟨c, rfl, hn⟩ | hr
  · exact absurd ((num_iff ho (hc.ok c (by simp)).1).1 hn) (h2.1 _ (by simp))
  · exact chainRem_code (hr p (hP p hp).1 (List.mem_map.2 ⟨p, hp, rfl⟩))

/-- Wu's principle: the zeros of `P` are zeros of the characteristic set, and a zero of the characteristic set at which no initial vanishes is a zero of `P`; if the result is a constant, `P` has no
zero.  The points have coordinates in any domain that extends the coefficients. -/
theorem C69_charset_zeros_partial (ho : VarOrd vc) (hg : Lawful (fun _ : R => True) gt) {P C : List (PV Mono R)} (hP : Good vc P) (hne : P ≠ []) {n : ℕ}
    (h : charset vc true gt n P = some (some C)) {K : Type*} [CommRing K] [IsDomain K] (φ : R →+* K) (hφ : Function.Injective φ) (a : Var → K) :
    ((∀ p ∈ P, eval₂ φ a (val p) = 0) → ∀ c ∈ C, eval₂ φ a (val c) = 0) ∧
    ((∀ c ∈ C, eval₂ φ a (val c) = 0) → (∀ c ∈ C, ∀ I, IsInit vc (val c) I → eval₂ φ a I ≠ 0) → ∀ p ∈ P, eval₂ φ a (val p) = 0) ∧
    ((∃ c ∈ C, (val c).vars = ∅) → ¬ ∀ p ∈ P, eval₂ φ a (val p) = 0) := by
  obtain ⟨-, hsub, halt⟩ := C69_charset_partial ho hg hP hne h
  have idz : ∀ (Q : List (PV Mono R)), (∀ p ∈ Q, eval₂ φ a (val p) = 0) → ∀ f ∈ idl (Q.map val), eval₂ φ a f = 0 := by
    intro Q hQ f hf
    have : idl (Q.map val) ≤ RingHom.ker (eval₂Hom φ a) := Ideal.span_le.2 fun p hp => by
      obtain ⟨q, hq, rfl⟩ := List.mem_map.1 hp
      exact hQ q hq
    exact this hf
  have h1 : (∀ p ∈ P, eval₂ φ a (val p) = 0) → ∀ c ∈ C, eval₂ φ a (val c) = 0 := fun hz c hc => idz P hz _ (hsub c hc).2.2
  have h3 : (∃ c ∈ C, (val c).vars = ∅) → ¬ ∀ p ∈ P, eval₂ φ a (val p) = 0 := by
    rintro ⟨c, hc, hv⟩ hz
    have h0 := h1 hz c hc
    have hne := (hsub c hc).2.1
    rw [vars_eq_empty_iff_eq_C] at hv
    rw [hv, eval₂_C] at h0
    exact hne (by rw [hv, (map_eq_zero_iff φ hφ).1 h0, C_0])
  refine ⟨h1, fun hz hI p hp => ?_, h3⟩
  rcases halt with ⟨c, rfl, hv⟩ | ⟨-, -, h4⟩
  · exfalso
    have h0 := hz c (by simp)
    have hne := (hsub c (by simp)).2.1
    rw [vars_eq_empty_iff_eq_C] at hv
    rw [hv, eval₂_C] at h0
    exact hne (by rw [hv, (map_eq_zero_iff φ hφ).1 h0, C_0])
  obtain ⟨-, m, hm, hmp⟩ := h4 p hp
  have hm0 : eval₂ φ a m ≠ 0 := by
    have : inits vc (C.map val) ≤ (nonZeroDivisors K).comap (eval₂Hom φ a) := by
      refine Submonoid.closure_le.2 ?_
      rintro I ⟨_, hcm, hI'⟩
      obtain ⟨c, hc', rfl⟩ := List.mem_map.1 hcm
      exact mem_nonZeroDivisors_of_ne_zero (hI c hc' I hI')
    exact nonZeroDivisors.ne_zero (this hm)
  have := idz C hz _ hmp
  rw [eval₂_mul] at this
  exact (mul_eq_zero.1 this).resolve_left hm0

/-- the checked `charset` always ends: with a result, or because an operand did not fit; more iterations do not change the outcome -/
theorem C69_charset_terminates_partial (ho : VarOrd vc) (hg : Lawful (fun _ : R => True) gt) {P : List (PV Mono R)} (hP : Good vc P) :
    ∃ n r, ∀ m ≥ n, charset vc true gt m P = some r := by
  obtain ⟨n, hn⟩ := charset_terminates (gt := gt) ho hg hP
  obtain ⟨r, hr⟩ := Option.ne_none_iff_exists'.1 hn
  exact ⟨n, r, fun m hm => charset_mono hm hr⟩

omit [IsDomain R] in
/-- **the code does not do what one expects**: with the zero polynomial among the operands, `charset` never returns (its first `basset` does not) -/
theorem C69_charset_zero_diverges (ho : VarOrd vc) (hg : Lawful (fun _ : R => True) gt) {P : List (PV Mono R)} (hP : ∀ p ∈ P, LP vc p) (h : [] ∈ P) (chk : Bool) :
    ∀ n, charset vc chk gt n P = none := by
  intro n
  unfold charset
  rw [if_neg (List.ne_nil_of_mem h)]
  cases n with
  | zero => rfl
  | succ n =>
    unfold charsetLoop basset
    rw [bassetLoop_zero _ _ ((mem_insertAll ho hg hP (by simp)).2 (.inl h))]; rfl

end

section
variable {vc : Var → Var → Bool}

/-! ## C70: squarefree part -/

/-- whatever a checked run of `sqrfree(F)` returns for `F ≠ 0` is the result of the code on that run: a squarefree polynomial without integer content that divides `F`, and `F` divides an integer
times a power of it; it is unique up to the sign -/
theorem C70_sqrfree_partial (ho : VarOrd vc) {prev : ℕ → Option ℕ} (hprev : Upoly.PrevOK prev) (fuel : ℕ) {F s : PV Mono ℤ} (hF : LP vc F) (h0 : F ≠ []) {rs rest : List ℕ}
    (h : sqrfree vc true prev fuel F rs = some (s, rest)) :
    sqrfree vc false prev fuel F rs = some (s, rest) ∧ LP vc s ∧ val s ∣ val F ∧ (∃ z : ℤ, z ≠ 0 ∧ ∃ k, val F ∣ C z * val s ^ k) ∧ Squarefree (val s) ∧
      (∀ z : ℤ, (C z : MvPolynomial Var ℤ) ∣ val s → IsUnit z) ∧
      ∀ t : MvPolynomial Var ℤ, t ∣ val F → (∃ z : ℤ, z ≠ 0 ∧ ∃ k, val F ∣ C z * t ^ k) → Squarefree t → (∀ z : ℤ, (C z : MvPolynomial Var ℤ) ∣ t → IsUnit z) → t = val s ∨ t = - val s := by
  obtain ⟨h1, h2⟩ := sqrfree_spec ho hprev fuel hF h0 rs _ h
  exact ⟨sqrfree_code true prev fuel F rs _ h, h1, h2.dvd, h2.back, h2.sqf, h2.prim, fun t a b c d => h2.unique ⟨a, b, c, d⟩⟩

/-! ## C71: Wu's decomposition -/

/-- whatever a checked run of `Wucharset(P)` returns for non-zero polynomials is the result of the code on that run, a list of triangular sets of squarefree polynomials; the common zeros of `P`, in any
domain of characteristic 0, are exactly the zeros of these sets at which no initial of the set vanishes -/
theorem C71_wucharset_partial (ho : VarOrd vc) {prev : ℕ → Option ℕ} (hprev : Upoly.PrevOK prev) (fuel n : ℕ) {P : List (PV Mono ℤ)} (hP : Good vc P) (hne : P ≠ [])
    {rs rest : List ℕ} {L : List (List (PV Mono ℤ))} (h : wuCharset vc true (sqrfree vc true prev fuel) n P rs = some (some L, rest)) :
    wuCharset vc false (sqrfree vc false prev fuel) n P rs = some (some L, rest) ∧
      (∀ T ∈ L, T ≠ [] ∧ (∀ t ∈ T, LP vc t ∧ Squarefree (val t)) ∧ Triangular vc (T.map val)) ∧
      ∀ {K : Type} [CommRing K] [IsDomain K] [CharZero K] (a : Var → K), (∀ p ∈ P, aeval a (val p) = 0) ↔
        ∃ T ∈ L, ∀ t ∈ T, aeval a (val t) = 0 ∧ ∀ I, IsInit vc (val t) I → aeval a I ≠ 0 := by
  have hw := wuCharset_spec ho (sq := sqrfree vc true prev fuel) (fun F hF h0 => sqrfree_spec ho hprev fuel hF h0) n P hP hne rs _ h L rfl
  refine ⟨wuCharset_sub (sqrfree_code true prev fuel) n P rs L rest h, hw.tri, fun a => ?_⟩
  rw [← hw.zeros a, List.forall_mem_map]

/-- the recursion of the checked `Wucharset` ends: there is a depth that is never exhausted, whatever the random draws -/
theorem C71_wucharset_terminates_partial (ho : VarOrd vc) {prev : ℕ → Option ℕ} (hprev : Upoly.PrevOK prev) (fuel : ℕ) {P : List (PV Mono ℤ)} (hP : Good vc P) (hne : P ≠ []) :
    ∃ N, ∀ n ≥ N, ∀ rs rest, wuCharset vc true (sqrfree vc true prev fuel) n P rs ≠ some (none, rest) := by
  obtain ⟨N, hN⟩ := wuCharset_terminates ho (sq := sqrfree vc true prev fuel) (fun F hF h0 => sqrfree_spec ho hprev fuel hF h0) P hP hne
  exact ⟨N, fun n hn rs rest e => hN n hn rs _ e rfl⟩

end

/-! ## concrete cases -/

/-- `xy − 1`, `y² − 1` with `x > y` (variables 1 and 2) -/
def csP : List (PV Mono ℤ) := [[(exXY 1 1, 1), (exXY 0 0, -1)], [(exXY 0 2, 1), (exXY 0 0, -1)]]

example : Good varLess csP ∧ csP ≠ [] ∧ Lawful (fun _ : ℤ => True) gtZ := ⟨by unfold Good; decide +kernel, by decide, gtZ_lawful⟩

/-- the basic set has the polynomial of lower rank first -/
example : basset varLess csP = some [[(exXY 0 2, 1), (exXY 0 0, -1)], [(exXY 1 1, 1), (exXY 0 0, -1)]] := by decide +kernel

/-- `{xy − 1, x² − 1}`: the characteristic set needs a second round: `x` is eliminated by pseudo-division, giving `y² − 1` up to the sign -/
def csQ : List (PV Mono ℤ) := [[(exXY 1 1, 1), (exXY 0 0, -1)], [(exXY 2 0, 1), (exXY 0 0, -1)]]

example : Good varLess csQ ∧ basset varLess csQ = some [[(exXY 1 1, 1), (exXY 0 0, -1)]] ∧
    charset varLess true gtZ 3 csQ = some (some [[(exXY 0 2, -1), (exXY 0 0, 1)], [(exXY 1 1, 1), (exXY 0 0, -1)]]) := by
  refine ⟨by unfold Good; decide +kernel, ?_⟩
  decide +kernel

/-- an inconsistent system: a constant -/
example : charset varLess true gtZ 3 ([[(exXY 1 0, 1)], [(exXY 1 0, 1), (exXY 0 0, -1)]] : List (PV Mono ℤ)) = some (some [[(exXY 0 0, -1)]]) := by decide +kernel

/-- the squarefree part of `3x²(y + 1)` -/
example : sqrfree varLess true mgPrev 9 [(exXY 2 1, 3), (exXY 2 0, 3)] [] = some ([(exXY 1 1, 1), (exXY 1 0, 1)], []) := by decide +kernel

instance csDec1 : DecidableEq (List (List (PV Mono ℤ))) := inferInstanceAs (DecidableEq (List (List (List (Mono × ℤ)))))

/-- `{xy, x²}`: the zeros are `x = 0`, whatever `y` -/
example : wuCharset varLess true (sqrfree varLess true mgPrev 9) 4 ([[(exXY 1 1, 1)], [(exXY 2 0, 1)]] : List (PV Mono ℤ)) [] =
    some (some [[[(exXY 1 1, 1)]], [[(exXY 0 1, 1)], [(exXY 1 0, 1)]]], []) := by
  decide +kernel

end CLPoly
