import Verif.Charset.RegZd
import Verif.Charset.RegRsd
import Verif.Charset.RegDiv
import Verif.Charset.RegSas
import Verif.Props.RegularChains

/-!
# Properties C79–C82: decomposition of zero-dimensional systems into regular chains

Vocabulary: `Zero`, `ZeroDimTri`, `RegularChain` (Props/RegularChains.lean), `IsInit` – initial, `Good` – non-zero polynomials in normal form (Props/Charset.lean).
A checked run (`true`) gives up where an operand does not fit the packed representation, see Props/RegularChains.lean; the prime source of the gcd computations is `prev`.
`fuel` bounds the loops of the gcd, `n` the recursion of the decompositions; `rs` are the random draws of the gcd computations, `rest` those left over.
-/

namespace CLPoly
open Mono Mgcd MvPolynomial Charset

/-- `ra` in terms of the specification -/
theorem ra_iff {ord : List Var} (hn : ord.Nodup) {T : List (PV Mono ℤ)} : RA ord T ↔ ∀ (K : Type) [Field K] [CharZero K], RegularChain K ord T :=
  ⟨fun h K _ _ => (regularChain_iff hn).2 (h ⟨K⟩), fun h X => (regularChain_iff hn).1 (h X.K)⟩

variable {ord : List Var} {prev : ℕ → Option ℕ}

/-- whatever a checked run of `ZDtoRC(T)` returns for a triangular set without free variables is the result of the code on that run: regular chains (over every field of characteristic 0) as long as `T`,
whose zeros together are the zeros of `T` at which no initial of `T` vanishes -/
theorem C79_zd_to_rc_partial (hn : ord.Nodup) (hprev : Upoly.PrevOK prev) (fuel n : ℕ) {T : List (PV Mono ℤ)} (hT : ZeroDimTri ord T) {rs rest : List ℕ} {O : List (List (PV Mono ℤ))}
    (h : zdToRC ord true (sqrfree (varCustom ord) true prev fuel) n T rs = some (some O, rest)) :
    zdToRC ord false (sqrfree (varCustom ord) false prev fuel) n T rs = some (some O, rest) ∧
      (∀ C ∈ O, C.length = T.length ∧ ∀ (K : Type) [Field K] [CharZero K], RegularChain K ord C) ∧
      ∀ (K : Type) [Field K] [CharZero K] (a : Var → K), (∃ C ∈ O, Zero C a) ↔ ∀ t ∈ T, aeval a (val t) = 0 ∧ ∀ I, IsInit (varCustom ord) (val t) I → aeval a I ≠ 0 := by
  have hT' := zeroDimTri_iff.1 hT
  have hz := zdToRC_sound hn (sq := sqrfree (varCustom ord) true prev fuel) (fun F hF h0 => sqrfree_spec (varCustom_ord ord) hprev fuel hF h0) hT' n rs _ h O rfl
  refine ⟨zdToRC_sub ord (sqrfree_code true prev fuel) n T rs O rest h, fun C hC => ⟨(hz.rc C hC).2, (ra_iff hn).1 (hz.rc C hC).1⟩, fun K _ _ a => ?_⟩
  rw [← ini_iff hn hT']
  exact hz.zr ⟨K⟩ a

/-- the recursion of the checked `ZDtoRC` ends: there is a depth that is never exhausted, whatever the random draws -/
theorem C79_zd_to_rc_terminates_partial (hn : ord.Nodup) (hprev : Upoly.PrevOK prev) (fuel : ℕ) {T : List (PV Mono ℤ)} (hT : ZeroDimTri ord T) :
    ∃ N, ∀ n ≥ N, ∀ rs rest, zdToRC ord true (sqrfree (varCustom ord) true prev fuel) n T rs ≠ some (none, rest) := by
  obtain ⟨N, hN⟩ := zdToRC_ends hn (sq := sqrfree (varCustom ord) true prev fuel) (fun F hF h0 => sqrfree_spec (varCustom_ord ord) hprev fuel hF h0) (zeroDimTri_iff.1 hT)
  refine ⟨N, fun n h rs rest e => ?_⟩
  obtain ⟨a, ha, -⟩ := hN n h rs _ e
  simp at ha

/-- whatever a checked run of `GRDforZD(P)` returns, if the sets that `Wucharset(P)` finds on this run are triangular without free variables, is the result of the code: regular chains whose zeros together
are the zeros of `P` -/
theorem C79_grd_partial (hn : ord.Nodup) (hprev : Upoly.PrevOK prev) (fuel n : ℕ) {P : List (PV Mono ℤ)} (hP : Good (varCustom ord) P) (hne : P ≠ []) {rs rest : List ℕ} {O : List (List (PV Mono ℤ))}
    (h : grdForZD ord true (sqrfree (varCustom ord) true prev fuel) n P rs = some (some O, rest))
    (hL : ∀ L rs', wuCharset (varCustom ord) true (sqrfree (varCustom ord) true prev fuel) n P rs = some (some L, rs') → ∀ T ∈ L, ZeroDimTri ord T) :
    grdForZD ord false (sqrfree (varCustom ord) false prev fuel) n P rs = some (some O, rest) ∧
      (∀ C ∈ O, ∀ (K : Type) [Field K] [CharZero K], RegularChain K ord C) ∧
      ∀ (K : Type) [Field K] [CharZero K] (a : Var → K), (∃ C ∈ O, Zero C a) ↔ ∀ p ∈ P, aeval a (val p) = 0 := by
  obtain ⟨h1, h2⟩ := grdForZD_sound hn (sq := sqrfree (varCustom ord) true prev fuel) (fun F hF h0 => sqrfree_spec (varCustom_ord ord) hprev fuel hF h0) h hP hne
    fun L s' e T hT => zeroDimTri_iff.1 (hL L s' e T hT)
  exact ⟨grdForZD_sub ord (sqrfree_code true prev fuel) n P rs O rest h, fun C hC => (ra_iff hn).1 (h1 C hC), fun K _ _ a => h2 ⟨K⟩ a⟩

/-- on every stream of random draws the recursion of the checked `GRDforZD` ends -/
theorem C79_grd_terminates_partial (hn : ord.Nodup) (hprev : Upoly.PrevOK prev) (fuel : ℕ) {P : List (PV Mono ℤ)} (hP : Good (varCustom ord) P) (hne : P ≠ []) (rs : List ℕ)
    (hL : ∀ n L rs', wuCharset (varCustom ord) true (sqrfree (varCustom ord) true prev fuel) n P rs = some (some L, rs') → ∀ T ∈ L, ZeroDimTri ord T) :
    ∃ N, ∀ n ≥ N, ∀ rest, grdForZD ord true (sqrfree (varCustom ord) true prev fuel) n P rs ≠ some (none, rest) :=
  grdForZD_terminates hn (sq := sqrfree (varCustom ord) true prev fuel) (fun F hF h0 => sqrfree_spec (varCustom_ord ord) hprev fuel hF h0) hP hne rs
    fun n L s' e T hT => zeroDimTri_iff.1 (hL n L s' e T hT)

/-! ## concrete cases -/

/-- `y² − 1`, `(y + 1)x + 1`: not a regular chain, the initial `y + 1` vanishes at `y = −1` -/
def zdT : List (PV Mono ℤ) := [[(exXY 0 2, 1), (exXY 0 0, -1)], [(exXY 1 1, 1), (exXY 1 0, 1), (exXY 0 0, 1)]]

example : ZeroDimTri [1, 2] zdT := zeroDimTri_of (by decide +kernel)

/-- the zeros with `y = 1` remain -/
example : zdToRC [1, 2] true (sqrfree (varCustom [1, 2]) true mgPrev 9) 9 zdT [] = some (some [[[(exXY 0 1, 1), (exXY 0 0, -1)], [(exXY 1 1, 1), (exXY 1 0, 1), (exXY 0 0, 1)]]], []) := by
  decide +kernel

/-- `x² − y`, `xy − 1`: Wu's decomposition is one triangular set without free variables (`y³ − 1`, `xy − 1`), which is a regular chain -/
def zdP : List (PV Mono ℤ) := [[(exXY 2 0, 1), (exXY 0 1, -1)], [(exXY 1 1, 1), (exXY 0 0, -1)]]

example : Good (varCustom [1, 2]) zdP := by unfold Good; decide +kernel

def zdC : List (PV Mono ℤ) := [[(exXY 0 3, -1), (exXY 0 0, 1)], [(exXY 1 1, 1), (exXY 0 0, -1)]]

theorem zdP_wu : wuCharset (varCustom [1, 2]) true (sqrfree (varCustom [1, 2]) true mgPrev 9) 9 zdP [] = some (some [zdC], []) := by decide +kernel

example : grdForZD [1, 2] true (sqrfree (varCustom [1, 2]) true mgPrev 9) 9 zdP [] = some (some [zdC], []) := by decide +kernel

/-- the hypothesis on Wu's decomposition holds for this run -/
example : ∀ L rs', wuCharset (varCustom [1, 2]) true (sqrfree (varCustom [1, 2]) true mgPrev 9) 9 zdP [] = some (some L, rs') → ∀ T ∈ L, ZeroDimTri [1, 2] T := by
  intro L rs' h T hT
  rw [zdP_wu] at h
  simp only [Option.some.injEq, Prod.mk.injEq] at h
  rw [← h.1, List.mem_singleton] at hT
  subst hT
  exact zeroDimTri_of (by decide +kernel)

/-! ## C79 refuted: Wu's decomposition of a system with finitely many zeros may have free variables -/

/-- the order `w > y > z > x`: serials `x = 1`, `z = 2`, `y = 3`, `w = 4` -/
def ubOrd : List Var := [4, 3, 2, 1]
/-- `x⁴ − 1` -/
def ubX : PV Mono ℤ := [(⟨[(1, 4)], 4⟩, 1), (⟨[], 0⟩, -1)]
/-- `(x² − 1) z` -/
def ubZ : PV Mono ℤ := [(⟨[(2, 1), (1, 2)], 3⟩, 1), (⟨[(2, 1)], 1⟩, -1)]
/-- `y² + x − 1` -/
def ubY : PV Mono ℤ := [(⟨[(3, 2)], 2⟩, 1), (⟨[(1, 1)], 1⟩, 1), (⟨[], 0⟩, -1)]
/-- `(x + 1) y w + 1` -/
def ubW : PV Mono ℤ := [(⟨[(4, 1), (3, 1), (1, 1)], 3⟩, 1), (⟨[(4, 1), (3, 1)], 2⟩, 1), (⟨[], 0⟩, 1)]
/-- `x² − 1` -/
def ubI : PV Mono ℤ := [(⟨[(1, 2)], 2⟩, 1), (⟨[], 0⟩, -1)]
/-- `(x + 1) y` -/
def ubJ : PV Mono ℤ := [(⟨[(3, 1), (1, 1)], 2⟩, 1), (⟨[(3, 1)], 1⟩, 1)]
/-- the system -/
def ubP : List (PV Mono ℤ) := [ubX, ubZ, ubY, ubW]

theorem ubP_zero {K : Type*} [Field K] (a : Var → K) : (∀ p ∈ ubP, aeval a (val p) = 0) ↔ a 1 ^ 4 = 1 ∧ (a 1 ^ 2 - 1) * a 2 = 0 ∧ a 3 ^ 2 + a 1 = 1 ∧ (a 1 + 1) * a 3 * a 4 = -1 := by
  have h1 : aeval a (val ubX) = a 1 ^ 4 - 1 := by simp [ubX, val_cons, val_nil, expo, aeval_monomial, sub_eq_add_neg]
  have h2 : aeval a (val ubZ) = (a 1 ^ 2 - 1) * a 2 := by
    simp [ubZ, val_cons, val_nil, expo, aeval_monomial, sub_eq_add_neg, Finsupp.prod_add_index', pow_add]
    ring
  have h3 : aeval a (val ubY) = a 3 ^ 2 + a 1 - 1 := by
    simp [ubY, val_cons, val_nil, expo, aeval_monomial, sub_eq_add_neg]
    ring
  have h4 : aeval a (val ubW) = (a 1 + 1) * a 3 * a 4 + 1 := by
    simp [ubW, val_cons, val_nil, expo, aeval_monomial, Finsupp.prod_add_index', pow_add]
    ring
  simp only [ubP, List.mem_cons, List.not_mem_nil, or_false, forall_eq_or_imp, forall_eq, h1, h2, h3, h4, sub_eq_zero, add_eq_zero_iff_eq_neg]

theorem sq_finite {K : Type*} [Field K] (c : K) : {x : K | x ^ 2 = c}.Finite := by
  by_cases h : ∃ x0 : K, x0 ^ 2 = c
  · obtain ⟨x0, h0⟩ := h
    refine (Set.toFinite {x0, -x0}).subset fun x hx => ?_
    rw [Set.mem_setOf_eq, ← h0] at hx
    exact sq_eq_sq_iff_eq_or_eq_neg.1 hx
  · exact Set.finite_empty.subset fun x hx => h ⟨x, hx⟩

/-- the zeros: `x² = −1`, `z = 0`, `y² = 1 − x`, `w = −1/((x + 1)y)` -/
theorem ubP_finite (K : Type*) [Field K] [CharZero K] : ((fun a : Var → K => (a 1, a 2, a 3, a 4)) '' {a | ∀ p ∈ ubP, aeval a (val p) = 0}).Finite := by
  have hf : (⋃ x ∈ {x : K | x ^ 2 = -1}, (fun y : K => (x, (0 : K), y, -((x + 1) * y)⁻¹)) '' {y : K | y ^ 2 = 1 - x}).Finite :=
    (sq_finite (-1)).biUnion fun x _ => (sq_finite (1 - x)).image _
  refine hf.subset ?_
  rintro _ ⟨a, ha, rfl⟩
  obtain ⟨h1, h2, h3, h4⟩ := (ubP_zero a).1 ha
  have hn : (a 1 + 1) * a 3 ≠ 0 := fun e => by rw [e, zero_mul] at h4; exact absurd h4 (by simp)
  have hx1 : a 1 + 1 ≠ 0 := left_ne_zero_of_mul hn
  have hy : a 3 ≠ 0 := right_ne_zero_of_mul hn
  have hx2 : a 1 - 1 ≠ 0 := fun e => by
    have : a 3 ^ 2 = 0 := by linear_combination h3 - e
    exact hy (pow_eq_zero_iff (by norm_num) |>.1 this)
  have hx : a 1 ^ 2 = -1 := by
    have : (a 1 - 1) * ((a 1 + 1) * (a 1 ^ 2 + 1)) = 0 := by linear_combination h1
    have := (mul_eq_zero.1 ((mul_eq_zero.1 this).resolve_left hx2)).resolve_left hx1
    linear_combination this
  have hz : a 2 = 0 := (mul_eq_zero.1 h2).resolve_left fun e => by
    rw [hx] at e
    have : (2 : K) = 0 := by linear_combination -e
    exact two_ne_zero this
  have hw : a 4 = -((a 1 + 1) * a 3)⁻¹ := by
    rw [inv_eq_one_div, ← neg_div, eq_div_iff hn]
    linear_combination h4
  simp only [Set.mem_iUnion]
  exact ⟨a 1, hx, a 3, by rw [Set.mem_setOf_eq]; linear_combination h3, by rw [hz, hw]⟩

/-- **the claim is false**: `x⁴ − 1`, `(x² − 1)z`, `y² + x − 1`, `(x + 1)yw + 1` has finitely many zeros in every field of characteristic 0 (and has zeros in ℂ), but Wu's decomposition contains a second set
`C = {x² − 1, y² + x − 1, (x + 1)yw + 1}` (without a polynomial for `z`, and without zeros where its initials do not vanish).  `ZDtoRC(C)` finds that the initial `(x + 1)y` is not regular modulo the first two elements, and
`wrsd({x² − 1, y² + x − 1}, (x + 1)y)` then reads the third element of this vector of two, because the rank of `y` is 3.  The run uses no random number. -/
theorem C79_grd_out_of_range_refuted :
    Good (varCustom ubOrd) ubP ∧ (∀ (K : Type) [Field K] [CharZero K], ((fun a : Var → K => (a 1, a 2, a 3, a 4)) '' {a | ∀ p ∈ ubP, aeval a (val p) = 0}).Finite) ∧
      (∃ a : Var → ℂ, ∀ p ∈ ubP, aeval a (val p) = 0) ∧
      wuCharset (varCustom ubOrd) false (sqrfree (varCustom ubOrd) false mgPrev 9) 9 ubP [] = some (some [ubP, [ubI, ubY, ubW]], []) ∧
      [ubI, ubY].length < custN ubOrd (pFirstVar ubJ) ∧ wrsd ubOrd false 9 [ubI, ubY] ubJ = some none ∧
      zdToRC ubOrd false (sqrfree (varCustom ubOrd) false mgPrev 9) 9 [ubI, ubY, ubW] [] = none ∧
      grdForZD ubOrd false (sqrfree (varCustom ubOrd) false mgPrev 9) 9 ubP [] = none := by
  refine ⟨by unfold Good; decide +kernel, fun K _ _ => ubP_finite K, ?_, by decide +kernel, by decide +kernel, by decide +kernel, by decide +kernel, by decide +kernel⟩
  obtain ⟨y, hy⟩ := IsAlgClosed.exists_pow_nat_eq (1 - Complex.I) (n := 2) (by norm_num)
  have hI : (Complex.I + 1) ≠ 0 := fun e => by have := congrArg Complex.re e; simp at this
  have hJ : (1 - Complex.I) ≠ 0 := fun e => by have := congrArg Complex.re e; simp at this
  have y0 : y ≠ 0 := fun e => by rw [e] at hy; exact hJ (by rw [← hy]; ring)
  refine ⟨fun v => if v = 1 then Complex.I else if v = 3 then y else if v = 4 then -((Complex.I + 1) * y)⁻¹ else 0, (ubP_zero _).2 ⟨?_, ?_, ?_, ?_⟩⟩
  · simp
  · simp
  · simp only [if_true, show (3 : Var) ≠ 1 by decide, if_false]
    linear_combination hy
  · simp only [if_true, show (3 : Var) ≠ 1 by decide, show (4 : Var) ≠ 1 by decide, show (4 : Var) ≠ 3 by decide, if_false]
    field_simp

/-! ## C80, C81: recursions that do not end -/

/-- a chain with constant initials is regular -/
theorem regular_of_monic {ord : List Var} (hn : ord.Nodup) {T : List (PV Mono ℤ)} (hT : ZeroDimTri ord T) (h : ∀ i < T.length, leadLex (T.getD i []) = [(⟨[], 0⟩, 1)]) (K : Type*) [Field K] :
    RegularChain K ord T := by
  refine ⟨hT, fun i hi I hI a _ => ?_⟩
  have hl := lvl0_at (zeroDimTri_iff.1 hT) hi
  have h' := (isInit_iff hn (by simpa only [List.getD_eq_getElem _ _ hi] using hl)).1 hI
  have h1 := (hl.init hn).2.2.1
  rw [h i hi] at h1
  rw [List.getD_eq_getElem _ _ hi, ← h'] at h1
  rw [← h1, val_cons, val_nil, show ((⟨[], 0⟩ : Mono), (1 : ℤ)).1.expo = 0 by simp [expo]]
  simp

/-- **the code does not do what one expects**: `rsd(T, f)` for the regular chain `T = {y², x²}` and `f = x² + y` calls itself with the same arguments forever; so there is no result -/
theorem C80_rsd_diverges : (∀ K [Field K], RegularChain K [1, 2] dvT) ∧ OnlyFirst [1, 2] 2 dvF ∧ ∀ n, rsd [1, 2] false n dvT dvF = none :=
  ⟨fun K _ => regular_of_monic (by decide) (zeroDimTri_of (by decide +kernel)) (by decide) K, onlyFirst_of (by decide +kernel), rsd_diverges⟩

/-- whatever the checked `rsd(T, f)` returns for a regular chain `T` and a polynomial `f` in its variables is the result of the code: regular chains of the length of `T`; the zeros of those in `H` are
the zeros of `T` at which `f` vanishes, the zeros of those in `G` are the other zeros of `T` -/
theorem C80_rsd_sound_partial (hn : ord.Nodup) (n : ℕ) {T : List (PV Mono ℤ)} {f : PV Mono ℤ} (hT : ∀ (K : Type) [Field K] [CharZero K], RegularChain K ord T) (hf : OnlyFirst ord T.length f)
    {H G : List (List (PV Mono ℤ))} (h : rsd ord true n T f = some (some (H, G))) :
    rsd ord false n T f = some (some (H, G)) ∧
      (∀ C ∈ H ++ G, C.length = T.length ∧ ∀ (K : Type) [Field K] [CharZero K], RegularChain K ord C) ∧
      ∀ (K : Type) [Field K] [CharZero K] (a : Var → K), ((∃ C ∈ H, Zero C a) ↔ Zero T a ∧ aeval a (val f) = 0) ∧ ((∃ C ∈ G, Zero C a) ↔ Zero T a ∧ aeval a (val f) ≠ 0) := by
  have hT' := (ra_iff hn).2 hT
  obtain ⟨h1, h2⟩ := (onlyFirst_iff hT'.tc.len).1 hf
  have hz := rsd_sound hn n T f hT' h1 h2 (H, G) h
  refine ⟨rsd_code ord true n T f (H, G) h, fun C hC => ⟨?_, fun K _ _ => ?_⟩, fun K _ _ a => ⟨(hz ⟨K⟩).hz a, (hz ⟨K⟩).gz a⟩⟩
  · rcases List.mem_append.1 hC with hC | hC
    · exact ((hz ⟨ℂ⟩).h C hC).2
    · exact ((hz ⟨ℂ⟩).g C hC).2
  · rcases List.mem_append.1 hC with hC | hC
    · exact (regularChain_iff hn).2 ((hz ⟨K⟩).h C hC).1
    · exact (regularChain_iff hn).2 ((hz ⟨K⟩).g C hC).1

/-- the hypotheses are met and `rsd` returns: the chain `rcT` and `x − 1` -/
example : (∀ (K : Type) [Field K] [CharZero K], RegularChain K [1, 2] rcT) ∧ OnlyFirst [1, 2] rcT.length [(exXY 1 0, 1), (exXY 0 0, -1)] := ⟨fun K _ _ => rcT_regular K, onlyFirst_of (by decide +kernel)⟩

/-- `rsd(rcT, x − 1)`, as for `wrsd` -/
example : rsd [1, 2] true 20 rcT [(exXY 1 0, 1), (exXY 0 0, -1)] =
    some (some ([[[(exXY 0 1, 1), (exXY 0 0, -1)], [(exXY 1 0, 1), (exXY 0 0, -1)]]],
      [[[(exXY 0 1, 1), (exXY 0 0, -1)], [(exXY 1 0, 1), (exXY 0 1, 1), (exXY 0 0, 1)]], [[(exXY 0 1, 1), (exXY 0 0, 1)], [(exXY 2 0, 1), (exXY 1 1, 1), (exXY 0 0, -2)]]])) := by
  decide +kernel

/-- `rsd(rcT, x³ − 1)`: the degree of `f` exceeds that of the last element -/
example : rsd [1, 2] true 20 rcT [(exXY 3 0, 1), (exXY 0 0, -1)] =
    some (some ([[[(exXY 0 1, 7), (exXY 0 0, -7)], [(exXY 1 0, 147), (exXY 0 0, -147)]]],
      [[[(exXY 0 1, 7), (exXY 0 0, -7)], [(exXY 1 0, 147), (exXY 0 1, 147), (exXY 0 0, 147)]], [[(exXY 0 1, 7), (exXY 0 0, 7)], [(exXY 2 0, 1), (exXY 1 1, 1), (exXY 0 0, -2)]]])) := by
  decide +kernel

/-- **the code does not do what one expects**: for the chain `{x⁴ − x³ + x² − 1}` and `f = x³ − x² + x − 1` (see `C78_wrsd_wrong`) the code returns `H = {{f}}`, `G = {{x}}`; 0 is not a zero of the chain -/
theorem C80_rsd_wrong :
    let T : List (PV Mono ℤ) := [[(exXY 4 0, 1), (exXY 3 0, -1), (exXY 2 0, 1), (exXY 0 0, -1)]]
    let f : PV Mono ℤ := [(exXY 3 0, 1), (exXY 2 0, -1), (exXY 1 0, 1), (exXY 0 0, -1)]
    (∀ K [Field K] [CharZero K], RegularChain K [1] T) ∧ OnlyFirst [1] 1 f ∧ rsd [1] false 20 T f = some (some ([[f]], [[[(exXY 1 0, 1)]]])) ∧
      ∃ a : Var → ℚ, Zero [[(exXY 1 0, 1)]] a ∧ ¬ Zero T a :=
  ⟨C78_wrsd_wrong.1, C78_wrsd_wrong.{0}.2.1, by decide +kernel, C78_wrsd_wrong.{0}.2.2.2.2⟩

/-- **the code does not do what one expects**: `RCtoSqrfree(T)` for the regular chain `T = {y², x³, z² + xy}` calls itself with the same argument forever -/
theorem C81_rc_to_sqrfree_diverges : (∀ K [Field K], RegularChain K [1, 2, 3] sqT) ∧ ∀ n, rcToSqf [1, 2, 3] false n sqT = none :=
  ⟨fun K _ => regular_of_monic (by decide) (zeroDimTri_of (by decide +kernel)) (by decide) K, rcToSqf_diverges⟩

/-! ## C81: chains without multiple zeros -/

/-- no element of the chain but possibly the first has a multiple zero in its main variable, over the zeros of the elements before it -/
def SimpleZeros (K : Type*) [Field K] (ord : List Var) (C : List (PV Mono ℤ)) : Prop :=
  ∀ i (h : i < C.length), 1 ≤ i → ∀ v, ord.reverse[i]? = some v → ∀ a : Var → K, Zero (C.take (i + 1)) a → aeval a (pderiv v (val C[i])) ≠ 0

theorem simpleZeros_of {ord : List Var} {C : List (PV Mono ℤ)} (h : ∀ i, 1 ≤ i → i < C.length → Sp ord i (C.take i) (C.getD i [])) (K : Type) [Field K] [CharZero K] : SimpleZeros K ord C := by
  intro i hi h1 v hv a ha
  have hl : lv ord i = v := by rw [lv, List.getD_eq_getElem?_getD, hv]; rfl
  have := h i h1 hi ⟨K⟩ a (fun t ht => ha t (List.take_subset_take_left _ (by omega) ht)) (by
    rw [List.getD_eq_getElem _ _ hi]
    exact ha _ (List.mem_take_iff_getElem.2 ⟨i, by omega, rfl⟩))
  rwa [hl, List.getD_eq_getElem _ _ hi] at this

/-- whatever the checked `RCtoSqrfree(T)` returns for a regular chain is the result of the code: regular chains of the length of `T` whose elements, except possibly the first, have no multiple zeros,
and whose zeros together are the zeros of `T` -/
theorem C81_rc_to_sqrfree_partial (hn : ord.Nodup) (n : ℕ) {T : List (PV Mono ℤ)} (hT : ∀ (K : Type) [Field K] [CharZero K], RegularChain K ord T) {O : List (List (PV Mono ℤ))}
    (h : rcToSqf ord true n T = some (some O)) :
    rcToSqf ord false n T = some (some O) ∧
      (∀ C ∈ O, C.length = T.length ∧ ∀ (K : Type) [Field K] [CharZero K], RegularChain K ord C ∧ SimpleZeros K ord C) ∧
      ∀ (K : Type) [Field K] [CharZero K] (a : Var → K), (∃ C ∈ O, Zero C a) ↔ Zero T a := by
  have hz := rcToSqf_sound hn n T ((ra_iff hn).2 hT) O h
  refine ⟨rcToSqf_code ord true n T O h, fun C hC => ?_, fun K _ _ a => hz.zr ⟨K⟩ a⟩
  obtain ⟨h1, h2, h3⟩ := hz.rc C hC
  exact ⟨h2, fun K _ _ => ⟨(ra_iff hn).1 h1 K, simpleZeros_of (fun i a b => h3 i a (by omega)) K⟩⟩

/-- **the code does not do what one expects**: the first element of the chain is not checked, `RCtoSqrfree({x²})` is `{x²}` -/
theorem C81_first_unchecked : rcToSqf [1, 2] false 1 [[(exXY 0 2, 1)]] = some (some [[[(exXY 0 2, 1)]]]) := by decide +kernel

/-- `y² − 1`, `x² + 2x + y`: multiple zeros for `y = 1` -/
def sqM : List (PV Mono ℤ) := [[(exXY 0 2, 1), (exXY 0 0, -1)], [(exXY 2 0, 1), (exXY 1 0, 2), (exXY 0 1, 1)]]

example : ∀ K [Field K], RegularChain K [1, 2] sqM := fun K _ => regular_of_monic (by decide) (zeroDimTri_of (by decide +kernel)) (by decide) K

/-- it is split -/
theorem sqM_split : ∃ O, rcToSqf [1, 2] true 9 sqM = some (some O) ∧ O.length = 2 := by
  have : ((rcToSqf [1, 2] true 9 sqM).bind id).map List.length = some 2 := by decide +kernel
  cases e : rcToSqf [1, 2] true 9 sqM with
  | none => rw [e] at this; simp at this
  | some r =>
    cases r with
    | none => rw [e] at this; simp at this
    | some O => rw [e] at this; exact ⟨O, rfl, by simpa using this⟩

/-! ## C82: semi-algebraic systems -/

/-- whatever a checked run of `GRDforZDSAS({P, G1, G2, H})` returns, if the sets that `Wucharset(P)` finds on this run are triangular in the `N` smallest variables and `G1`, `G2`, `H` involve only these:
it is the result of the code, a list of pairs of a regular chain of length `N` (without multiple zeros, except possibly for its first element) and of polynomials that vanish at no zero of the chain,
such that in every ordered field the points at which some chain vanishes and its polynomials are positive are the solutions of `P = 0`, `G1 ≥ 0`, `G2 > 0`, `H ≠ 0` -/
theorem C82_grd_sas_partial (hn : ord.Nodup) (hprev : Upoly.PrevOK prev) (fuel n : ℕ) {N : ℕ} (hN : N ≤ ord.length) {P G1 G2 H : List (PV Mono ℤ)} (hP : Good (varCustom ord) P) (hne : P ≠ [])
    (h1 : ∀ g ∈ G1, OnlyFirst ord N g) (h2 : ∀ g ∈ G2, OnlyFirst ord N g) (hH : ∀ g ∈ H, OnlyFirst ord N g) {rs rest : List ℕ} {O : List (List (PV Mono ℤ) × List (PV Mono ℤ))}
    (h : grdForZDSAS ord true (sqrfree (varCustom ord) true prev fuel) n P G1 G2 H rs = some (some O, rest))
    (hL : ∀ L rs', wuCharset (varCustom ord) true (sqrfree (varCustom ord) true prev fuel) n P rs = some (some L, rs') → ∀ T ∈ L, ZeroDimTri ord T ∧ T.length = N) :
    grdForZDSAS ord false (sqrfree (varCustom ord) false prev fuel) n P G1 G2 H rs = some (some O, rest) ∧
      (∀ C pos, (C, pos) ∈ O → C.length = N ∧ ∀ (K : Type) [Field K] [CharZero K], RegularChain K ord C ∧ SimpleZeros K ord C ∧ ∀ p ∈ pos, ∀ a : Var → K, Zero C a → aeval a (val p) ≠ 0) ∧
      ∀ (K : Type) [Field K] [LinearOrder K] [IsStrictOrderedRing K] (a : Var → K), (∃ C pos, (C, pos) ∈ O ∧ Zero C a ∧ ∀ p ∈ pos, 0 < aeval a (val p)) ↔
        (∀ p ∈ P, aeval a (val p) = 0) ∧ (∀ g ∈ G1, 0 ≤ aeval a (val g)) ∧ (∀ g ∈ G2, 0 < aeval a (val g)) ∧ ∀ g ∈ H, aeval a (val g) ≠ 0 := by
  have hs := grdForZDSAS_sound hn (sq := sqrfree (varCustom ord) true prev fuel) (fun F hF h0 => sqrfree_spec (varCustom_ord ord) hprev fuel hF h0) h hP hne
    (fun g hg => (onlyFirst_iff hN).1 (h1 g hg)) (fun g hg => (onlyFirst_iff hN).1 (h2 g hg)) (fun g hg => (onlyFirst_iff hN).1 (hH g hg))
    fun L s' e T hT => ⟨zeroDimTri_iff.1 (hL L s' e T hT).1, (hL L s' e T hT).2⟩
  refine ⟨grdForZDSAS_sub ord (sqrfree_code true prev fuel) n P G1 G2 H rs O rest h, fun C pos hC => ?_, fun K _ _ _ a => ?_⟩
  · obtain ⟨⟨⟨k1, k2⟩, k3⟩, k4⟩ := hs.pr _ hC
    refine ⟨k2, fun K _ _ => ⟨(ra_iff hn).1 k1 K, simpleZeros_of (fun i a b => k4 i a (k2 ▸ b)) K, fun p hp a ha => k3 p hp ⟨K⟩ a ha⟩⟩
  · refine Iff.trans ?_ (hs.sat ⟨K⟩ a)
    exact ⟨fun ⟨C, pos, hC, hz, hp⟩ => ⟨(C, pos), hC, hz, hp⟩, fun ⟨u, hu, hz, hp⟩ => ⟨u.1, u.2, hu, hz, hp⟩⟩

instance sasDec : DecidableEq (List (PV Mono ℤ) × List (PV Mono ℤ)) := inferInstance

/-- `x² − y = 0`, `xy − 1 = 0` with `x ≥ 0`, `y > 0`, `x + 1 ≠ 0`: the chain is returned with `y > 0`, `x > 0` -/
example : grdForZDSAS [1, 2] true (sqrfree (varCustom [1, 2]) true mgPrev 9) 9 zdP [[(exXY 1 0, 1)]] [[(exXY 0 1, 1)]] [[(exXY 1 0, 1), (exXY 0 0, 1)]] [] =
    some (some [(zdC, [[(exXY 0 1, 1)], [(exXY 1 0, 1)]])], []) := by decide +kernel

example : OnlyFirst [1, 2] 2 [(exXY 1 0, 1), (exXY 0 0, 1)] ∧ zdC.length = 2 := ⟨onlyFirst_of (by decide +kernel), rfl⟩

/-- **the claim is false** for the system of `C79_grd_out_of_range_refuted`, already without inequalities: the run reads outside a vector -/
theorem C82_grd_sas_out_of_range_refuted : grdForZDSAS ubOrd false (sqrfree (varCustom ubOrd) false mgPrev 9) 9 ubP [] [] [] [] = none := by decide +kernel

end CLPoly
