import Verif.Poly.OpsDefs
import Verif.Poly.MulSpec
import Verif.Poly.Support
import Mathlib.Algebra.MvPolynomial.Variables

/-! # Powers -/

namespace CLPoly
open Mono
variable {vc : Var → Var → Bool} {mc : Mono → Mono → Bool} {R : Type*} [CommRing R] [DecidableEq R]

theorem polyVars_eq (M : MonoOrd vc mc) {p : PV Mono R} (hp : PolyOK vc mc p) : polyVars p = (val p).vars := by
  ext v
  rw [MvPolynomial.mem_vars]
  constructor
  · intro h
    obtain ⟨t, ht, hv⟩ := List.mem_flatMap.1 (List.mem_toFinset.1 h)
    obtain ⟨x, hx, rfl⟩ := List.mem_map.1 hv
    refine ⟨expo t.1, (hp.mem_support M).2 ⟨t, ht, rfl⟩, ?_⟩
    rw [Finsupp.mem_support_iff]
    intro h0
    have h1 := (hp.monos t ht).expo_eq x.1
    rw [h0, E_mem M.vo (hp.monos t ht).sorted hx] at h1
    have := (hp.monos t ht).pos x hx
    simp at h1; omega
  · rintro ⟨s, hs, hv⟩
    obtain ⟨t, ht, rfl⟩ := (hp.mem_support M).1 hs
    rw [Finsupp.mem_support_iff] at hv
    have h1 := (hp.monos t ht).expo_eq v
    obtain ⟨x, hx, rfl⟩ := exists_of_E (d := t.1.data) (v := v) (by rw [← h1]; exact_mod_cast hv)
    exact mem_polyVars ht hx

/-- products of powers of `p` with total exponent at most `n` can be formed -/
def PowFits (vc : Var → Var → Bool) (C : OrderCode R) (B : List Var → Mono → Prop) (p : PV Mono R) (n : ℕ) : Prop :=
  ∀ a b : ℕ, 1 ≤ a → 1 ≤ b → a + b ≤ n → ∀ x y, PolyOK vc C.mc x → PolyOK vc C.mc y → val x = val p ^ a → val y = val p ^ b →
    x.length ≤ 1 ∨ y.length ≤ 1 ∨ MulFits vc B x y

variable [NoZeroDivisors R] {C : OrderCode R} {B : List Var → Mono → Prop} (H : CodeOK vc C B) {p : PV Mono R} {n : ℕ}
  (hfit : PowFits vc C B p n)
include H hfit

theorem powMul {a b : ℕ} (ha : 1 ≤ a) (hb : 1 ≤ b) (hab : a + b ≤ n) {x y : PV Mono R} (hx : PolyOK vc C.mc x)
    (hy : PolyOK vc C.mc y) (ex : val x = val p ^ a) (ey : val y = val p ^ b) :
    ∃ out, polyMul vc C x y = some out ∧ PolyOK vc C.mc out ∧ val out = val p ^ (a + b) := by
  obtain ⟨out, h1, h2, h3⟩ := polyMul_spec H hx hy (hfit a b ha hb hab x y hx hy ex ey)
  exact ⟨out, h1, h2, by rw [h3, ex, ey, pow_add]⟩

theorem polyPowLoop_spec : ∀ (fuel i : ℕ) (init q : PV Mono R) (b : Bool) (e k : ℕ), i ≤ fuel → 1 ≤ i → 1 ≤ k → e + k * i ≤ n →
    PolyOK vc C.mc q → val q = val p ^ k →
    (b = true ∧ e = 0 ∨ b = false ∧ 1 ≤ e ∧ PolyOK vc C.mc init ∧ val init = val p ^ e) →
    ∃ out, polyPowLoop vc C fuel i init q b = some out ∧ PolyOK vc C.mc out ∧ val out = val p ^ (e + k * i) := by
  intro fuel
  induction fuel with
  | zero => intro i _ _ _ _ _ h1 h2; omega
  | succ fuel ih =>
  intro i init q b e k hif hi hk hn hq eq hb
  rw [polyPowLoop, if_neg (by omega)]
  -- the state after the multiplication step
  obtain ⟨init', b', e', s1, s2, s3, s4⟩ : ∃ init' b' e', (if i % 2 ≠ 0 then (if b then some q else polyMul vc C init q) else some init) = some init' ∧
      b' = (if i % 2 ≠ 0 then false else b) ∧ e' = e + k * (i % 2) ∧
      (b' = true ∧ e' = 0 ∨ b' = false ∧ 1 ≤ e' ∧ PolyOK vc C.mc init' ∧ val init' = val p ^ e') := by
    have hmod : i % 2 = 0 ∨ i % 2 = 1 := by omega
    rcases hmod with h0 | h1
    · simp only [h0, ne_eq, not_true_eq_false, if_false]
      exact ⟨init, b, e, rfl, rfl, by simp, hb⟩
    · simp only [h1, ne_eq, one_ne_zero, not_false_eq_true, if_true]
      rcases hb with ⟨rfl, rfl⟩ | ⟨rfl, h1e, h2, h3⟩
      · exact ⟨q, false, k, by simp, rfl, by simp, .inr ⟨rfl, hk, hq, eq⟩⟩
      · have : e + k ≤ n := le_trans (by nlinarith) hn
        obtain ⟨out, o1, o2, o3⟩ := powMul H hfit h1e hk this h2 hq h3 eq
        exact ⟨out, false, e + k, by simpa using o1, rfl, by simp, .inr ⟨rfl, by omega, o2, o3⟩⟩
  rw [s1, Option.bind_some, ← s2]
  have hdiv : i = 2 * (i / 2) + i % 2 := by omega
  by_cases h2 : i / 2 = 0
  · have : i = 1 := by omega
    subst this
    simp only [Nat.reduceDiv, ne_eq, not_true_eq_false, if_false]
    refine ⟨init', rfl, ?_⟩
    rcases s4 with ⟨_, h⟩ | ⟨_, _, h3, h4⟩
    · simp at s3; omega
    · rw [h4, s3]; exact ⟨h3, rfl⟩
  · rw [if_pos h2]
    have hle : e + k * i = e' + (k + k) * (i / 2) := by
      rw [s3]; conv_lhs => rw [hdiv]
      ring
    have hkk : k + k ≤ n := by
      rw [hle] at hn
      have : 1 ≤ i / 2 := by omega
      nlinarith
    obtain ⟨q', q1, q2, q3⟩ := powMul H hfit hk hk hkk hq hq eq eq
    rw [q1, Option.bind_some, hle]
    exact ih (i / 2) init' q' b' e' (k + k) (by omega) (by omega) (by omega) (hle ▸ hn) q2 q3 s4

omit [NoZeroDivisors R] H hfit in
theorem polyOK_one [Nontrivial R] {mc : Mono → Mono → Bool} : PolyOK vc mc [(Mono.one, (1 : R))] :=
  ⟨by simpa using one_valid, by simp, by simp⟩

omit [NoZeroDivisors R] H hfit [DecidableEq R] in
theorem val_oneP : val [(Mono.one, (1 : R))] = 1 := by
  rw [val_cons, val_nil, add_zero]
  rfl

theorem polyPow_spec [Nontrivial R] (hp : PolyOK vc C.mc p) :
    ∃ out, polyPow vc C p n = some out ∧ PolyOK vc C.mc out ∧ val out = val p ^ n := by
  unfold polyPow
  by_cases hp0 : p = []
  · subst hp0
    rw [if_pos rfl]
    by_cases hn : n = 0
    · subst hn
      exact ⟨_, rfl, polyOK_one, by rw [val_oneP, pow_zero]⟩
    · rw [if_neg hn]
      exact ⟨[], rfl, .nil, by rw [val_nil, zero_pow hn]⟩
  · rw [if_neg hp0]
    match n, hfit with
    | 0, _ => exact ⟨_, rfl, polyOK_one, by rw [val_oneP, pow_zero]⟩
    | 1, _ => exact ⟨_, rfl, hp, by rw [pow_one]⟩
    | 2, hfit => exact powMul H hfit (a := 1) (b := 1) le_rfl le_rfl le_rfl hp hp (pow_one _).symm (pow_one _).symm
    | 3, hfit =>
      obtain ⟨q, q1, q2, q3⟩ := powMul H hfit (a := 1) (b := 1) le_rfl le_rfl (by omega) hp hp (pow_one _).symm (pow_one _).symm
      simp only [q1, Option.bind_some]
      exact powMul H hfit (a := 2) (b := 1) (by omega) le_rfl le_rfl q2 hp q3 (pow_one _).symm
    | i + 4, hfit =>
      simp only [pvPower]
      rw [if_neg (by omega), if_neg (by omega)]
      obtain ⟨out, o1, o2, o3⟩ := polyPowLoop_spec H hfit (i + 4) (i + 4) [(Mono.one, 1)] p true 0 1 le_rfl (by omega) le_rfl (by omega) hp (pow_one _).symm (.inl ⟨rfl, rfl⟩)
      exact ⟨out, o1, o2, by rw [o3]; congr 1; omega⟩

end CLPoly

namespace CLPoly
open Mono
variable {vc : Var → Var → Bool} {R : Type*} [CommRing R] [DecidableEq R]

theorem capGr_anti {m n : ℕ} (h : m ≤ n) : capGr n ≤ capGr m := by
  unfold capGr
  split <;> split
  · rfl
  · omega
  · refine pow_le_pow_right₀ (by norm_num) ?_
    have : 64 / (n + 1) ≤ 64 / 2 := Nat.div_le_div_left (by omega) (by omega)
    omega
  · refine pow_le_pow_right₀ (by norm_num) ?_
    exact Nat.div_le_div_left (by omega) (by omega)

theorem capLex_anti {m n : ℕ} (h : m ≤ n) : capLex n ≤ capLex m := by
  unfold capLex
  split <;> split
  · rfl
  · omega
  · refine pow_le_pow_right₀ (by norm_num) ?_
    have : 64 / n ≤ 64 / 2 := Nat.div_le_div_left (by omega) (by omega)
    omega
  · refine pow_le_pow_right₀ (by norm_num) ?_
    exact Nat.div_le_div_left (by omega) (by omega)

theorem fits_gr_total (ho : VarOrd vc) {p q : PV Mono R} (hp : PolyOK vc (grlexGt vc) p) (hq : PolyOK vc (grlexGt vc) q)
    (h : ((val p).totalDegree + (val q).totalDegree : ℤ) < capGr ((val p).vars ∪ (val q).vars).card) :
    p.length ≤ 1 ∨ q.length ≤ 1 ∨ MulFits vc (FitsGr vc) p q := by
  by_cases p0 : p = []
  · simp [p0]
  by_cases q0 : q = []
  · simp [q0]
  refine .inr (.inr (mulFits_gr ho hp.monos hq.monos p0 q0 fun x hx y hy => ?_))
  rw [polyVars_eq (grlex_ord ho) hp, polyVars_eq (grlex_ord ho) hq]
  have h1 := hp.deg_le_total (grlex_ord ho) hx
  have h2 := hq.deg_le_total (grlex_ord ho) hy
  exact lt_of_le_of_lt (add_le_add h1 h2) h

theorem fits_lex_total (ho : VarOrd vc) {p q : PV Mono R} (hp : PolyOK vc (lexGt vc) p) (hq : PolyOK vc (lexGt vc) q)
    (h : ∀ v, ((val p).degreeOf v + (val q).degreeOf v : ℤ) < capLex ((val p).vars ∪ (val q).vars).card) :
    p.length ≤ 1 ∨ q.length ≤ 1 ∨ MulFits vc (FitsLex vc) p q := by
  by_cases p0 : p = []
  · simp [p0]
  by_cases q0 : q = []
  · simp [q0]
  refine .inr (.inr (mulFits_lex ho hp.monos hq.monos p0 q0 fun x hx y hy v => ?_))
  rw [polyVars_eq (lex_ord ho) hp, polyVars_eq (lex_ord ho) hq, degIn_eq ho (hp.monos x hx).sorted, degIn_eq ho (hq.monos y hy).sorted]
  have h1 := hp.exp_le (lex_ord ho) hx v
  have h2 := hq.exp_le (lex_ord ho) hy v
  exact lt_of_le_of_lt (add_le_add h1 h2) (h v)

theorem vars_pow_subset (f : MvPolynomial Var R) (n : ℕ) : (f ^ n).vars ⊆ f.vars := MvPolynomial.vars_pow f n

theorem powFits_gr (ho : VarOrd vc) {p : PV Mono R} {n : ℕ}
    (h : (n * (val p).totalDegree : ℤ) < capGr (val p).vars.card) : PowFits vc (codeGr R vc) (FitsGr vc) p n := by
  intro a b _ _ hab x y hx hy ex ey
  refine fits_gr_total ho hx hy ?_
  rw [ex, ey]
  have h1 := MvPolynomial.totalDegree_pow (val p) a
  have h2 := MvPolynomial.totalDegree_pow (val p) b
  have h3 : (val p ^ a).totalDegree + (val p ^ b).totalDegree ≤ n * (val p).totalDegree := by
    calc _ ≤ a * (val p).totalDegree + b * (val p).totalDegree := add_le_add h1 h2
      _ = (a + b) * (val p).totalDegree := by ring
      _ ≤ _ := Nat.mul_le_mul_right _ hab
  have h4 : ((val p ^ a).vars ∪ (val p ^ b).vars).card ≤ (val p).vars.card :=
    Finset.card_le_card (Finset.union_subset (vars_pow_subset _ _) (vars_pow_subset _ _))
  exact lt_of_le_of_lt (by exact_mod_cast h3) (lt_of_lt_of_le h (capGr_anti h4))

theorem powFits_lex (ho : VarOrd vc) {p : PV Mono R} {n : ℕ}
    (h : ∀ v, (n * (val p).degreeOf v : ℤ) < capLex (val p).vars.card) : PowFits vc (codeLex R vc) (FitsLex vc) p n := by
  intro a b _ _ hab x y hx hy ex ey
  refine fits_lex_total ho hx hy fun v => ?_
  rw [ex, ey]
  have h1 := MvPolynomial.degreeOf_pow_le v (val p) a
  have h2 := MvPolynomial.degreeOf_pow_le v (val p) b
  have h3 : (val p ^ a).degreeOf v + (val p ^ b).degreeOf v ≤ n * (val p).degreeOf v := by
    calc _ ≤ a * (val p).degreeOf v + b * (val p).degreeOf v := add_le_add h1 h2
      _ = (a + b) * (val p).degreeOf v := by ring
      _ ≤ _ := Nat.mul_le_mul_right _ hab
  have h4 : ((val p ^ a).vars ∪ (val p ^ b).vars).card ≤ (val p).vars.card :=
    Finset.card_le_card (Finset.union_subset (vars_pow_subset _ _) (vars_pow_subset _ _))
  exact lt_of_le_of_lt (by exact_mod_cast h3) (lt_of_lt_of_le (h v) (capLex_anti h4))

end CLPoly
