import Verif.Charset.RegIs
import Verif.Props.Charset
import Mathlib.Analysis.Complex.Polynomial.Basic

/-!
# Properties C77, C78: regular chains

`ord` lists the variables, greatest first (the argument of `custom_var_order`); `ord.reverse` is the list from the smallest variable on.  `Zero T a`: the point `a` is a common zero of `T`.
The checked variants (`true`) are not code: they give up (`some none`) when an operand does not fit the packed representation, or when `subresultant` returned a chain whose entry 1 is wrongly empty
(`C66_chain_defect`); `C78_wrsd_wrong` shows that the code returns a wrong decomposition in that case.
-/

namespace CLPoly
open Mono Mgcd MvPolynomial Charset

/-! ## specification -/

/-- `a` is a common zero -/
def Zero {K : Type*} [Field K] (T : List (PV Mono ℤ)) (a : Var → K) : Prop := ∀ t ∈ T, aeval a (val t) = 0

/-- triangular set without free variables: the `i`-th element involves the `i`-th smallest variable and otherwise only smaller ones (indices from 0) -/
def ZeroDimTri (ord : List Var) (T : List (PV Mono ℤ)) : Prop :=
  T.length ≤ ord.length ∧ ∀ i (h : i < T.length), LP (varCustom ord) T[i] ∧ (∀ w ∈ (val T[i]).vars, w ∈ ord.reverse.take (i + 1)) ∧ ord.reverse[i]? ∈ (val T[i]).vars.image some

/-- regular chain: the initial of every element vanishes at no zero of the elements before it -/
def RegularChain (K : Type*) [Field K] (ord : List Var) (T : List (PV Mono ℤ)) : Prop :=
  ZeroDimTri ord T ∧ ∀ i (h : i < T.length) I, IsInit (varCustom ord) (val T[i]) I → ∀ a : Var → K, Zero (T.take i) a → aeval a I ≠ 0

/-- `f` involves only the `n` smallest variables -/
def OnlyFirst (ord : List Var) (n : ℕ) (f : PV Mono ℤ) : Prop := LP (varCustom ord) f ∧ ∀ w ∈ (val f).vars, w ∈ ord.reverse.take n

/-! ## the specification in terms of the lemmas -/

theorem mem_Lo_iff {ord : List Var} {n : ℕ} (hn : n ≤ ord.length) {w : Var} : w ∈ Lo ord n ↔ w ∈ ord.reverse.take n := by
  rw [mem_Lo, List.mem_take_iff_getElem]
  constructor
  · rintro ⟨k, hk, rfl⟩
    exact ⟨k, by simp; omega, by rw [lv, List.getD_eq_getElem _ _ (by simp; omega)]⟩
  · rintro ⟨k, hk, rfl⟩
    rw [lt_min_iff] at hk
    exact ⟨k, hk.1, by rw [lv, List.getD_eq_getElem _ _ hk.2]⟩

theorem lv_mem_iff {ord : List Var} {i : ℕ} (hi : i < ord.length) {s : Finset Var} : ord.reverse[i]? ∈ s.image some ↔ lv ord i ∈ s := by
  rw [lv, List.getD_eq_getElem _ _ (by simpa using hi), List.getElem?_eq_getElem (by simpa using hi)]
  simp

theorem zeroDimTri_iff {ord : List Var} {T : List (PV Mono ℤ)} : ZeroDimTri ord T ↔ TC ord T := by
  constructor
  · rintro ⟨h1, h2⟩ A t B rfl
    obtain ⟨k1, k2, k3⟩ := h2 A.length (by simp)
    have hl : A.length < ord.length := by rw [List.length_append, List.length_cons] at h1; omega
    have e : (A ++ t :: B)[A.length]'(by simp) = t := by simp
    rw [e] at k1 k2 k3
    exact ⟨hl, k1, fun w hw => (mem_Lo_iff (by omega)).2 (k2 w hw), (lv_mem_iff hl).1 k3⟩
  · intro h
    refine ⟨h.len, fun i hi => ?_⟩
    have := lvl0_at h hi
    rw [List.getD_eq_getElem _ _ hi] at this
    have hlen : (T.take i).length = i := by rw [List.length_take]; omega
    obtain ⟨k1, k2, k3, k4⟩ := this
    rw [hlen] at k1 k3 k4
    exact ⟨k2, fun w hw => (mem_Lo_iff (by omega)).1 (k3 hw), (lv_mem_iff k1).2 k4⟩

theorem isInit_iff {ord : List Var} (hn : ord.Nodup) {A : List (PV Mono ℤ)} {t : PV Mono ℤ} (h : Lvl0 ord A t) {I : MvPolynomial Var ℤ} :
    IsInit (varCustom ord) (val t) I ↔ I = (toU (lv ord A.length) (val t)).leadingCoeff := by
  rw [init_iff (varCustom_ord ord) (h.isMain hn)]

theorem regularChain_iff {K : Type*} [Field K] {ord : List Var} (hn : ord.Nodup) {T : List (PV Mono ℤ)} : RegularChain K ord T ↔ RC K ord T := by
  unfold RegularChain
  rw [zeroDimTri_iff]
  constructor
  · rintro ⟨h1, h2⟩
    refine RC.of_levels h1 fun n hl a ha => ?_
    have h := lvl0_at h1 hl
    exact h2 n hl _ ((isInit_iff hn (by simpa only [List.getD_eq_getElem _ _ hl] using h)).2 (by rw [List.getD_eq_getElem _ _ hl])) a ha
  · rintro ⟨h1, h2⟩
    refine ⟨h1, fun i hi I hI a ha => ?_⟩
    have h := lvl0_at h1 hi
    have := h2 _ _ _ (getD_split hi) a ha
    rw [List.getD_eq_getElem _ _ hi] at this h
    rwa [(isInit_iff hn h).1 hI]

theorem onlyFirst_iff {ord : List Var} {n : ℕ} (h : n ≤ ord.length) {f : PV Mono ℤ} : OnlyFirst ord n f ↔ LP (varCustom ord) f ∧ (val f).vars ⊆ Lo ord n :=
  and_congr_right fun _ => ⟨fun k w hw => (mem_Lo_iff h).2 (k w hw), fun k w hw => (mem_Lo_iff h).1 (k hw)⟩

/-! ## C77: the test -/

/-- for a triangular set without free variables the checked `is_regular(T)` ends; its result, if it does not give up, is that of the code, and it is `true` exactly if `T` is a regular chain over the
complex numbers – and then over every field of characteristic 0 -/
theorem C77_is_regular_partial {ord : List Var} (hn : ord.Nodup) {T : List (PV Mono ℤ)} (hT : ZeroDimTri ord T) :
    ∃ N r, (∀ k ≥ N, isRegular (varCustom ord) true k T = some r) ∧
      ∀ b, r = some b → (∀ k ≥ N, isRegular (varCustom ord) false k T = some (some b)) ∧ (b = true ↔ RegularChain ℂ ord T) ∧
        (b = true → ∀ (K : Type) [Field K] [CharZero K], RegularChain K ord T) := by
  obtain ⟨N, r, h1, h2⟩ := isRegular_conv (K := ℂ) hn (zeroDimTri_iff.1 hT)
  refine ⟨N, r, h1, fun b hb => ⟨fun k hk => ?_, ⟨fun h => (regularChain_iff hn).2 ((h2 b hb).1 h), fun h => (h2 b hb).2 ((regularChain_iff hn).1 h)⟩, fun h K _ _ => ?_⟩⟩
  · exact isRegularFrom_code T _ _ (by have := h1 k hk; rw [hb] at this; exact this)
  · obtain ⟨N', r', h3, h4⟩ := isRegular_conv (K := K) hn (zeroDimTri_iff.1 hT)
    have e : r = r' := Option.some.inj ((h1 _ (le_max_left N N')).symm.trans (h3 _ (le_max_right N N')))
    exact (regularChain_iff hn).2 ((h4 b (e ▸ hb)).1 h)

/-! ## C78: the weakly relatively simplicial decomposition -/

/-- for a regular chain `T` over a field of characteristic 0 and a polynomial in its variables, the checked `wrsd(T, f)` ends; its result `(H, G)`, if it does not give up, is that of the code: regular
chains of the length of `T`, the zeros of those in `H` are the zeros of `T` at which `f` vanishes, the zeros of those in `G` are the other zeros of `T` -/
theorem C78_wrsd_partial {K : Type*} [Field K] [CharZero K] {ord : List Var} (hn : ord.Nodup) {T : List (PV Mono ℤ)} {f : PV Mono ℤ} (hT : RegularChain K ord T) (hf : OnlyFirst ord T.length f) :
    ∃ N r, (∀ k ≥ N, wrsd ord true k T f = some r) ∧
      ∀ H G, r = some (H, G) → (∀ k ≥ N, wrsd ord false k T f = some (some (H, G))) ∧
        (∀ C ∈ H ++ G, RegularChain K ord C ∧ C.length = T.length) ∧
        (∀ a : Var → K, (∃ C ∈ H, Zero C a) ↔ Zero T a ∧ aeval a (val f) = 0) ∧
        ∀ a : Var → K, (∃ C ∈ G, Zero C a) ↔ Zero T a ∧ aeval a (val f) ≠ 0 := by
  have hT' := (regularChain_iff hn).1 hT
  obtain ⟨h1, h2⟩ := (onlyFirst_iff hT'.1.len).1 hf
  obtain ⟨N, r, h3, h4⟩ := wrsd_conv (K := K) hn T f hT' h1 h2
  refine ⟨N, r, h3, fun H G e => ⟨fun k hk => wrsd_code ord true k T f _ (by have := h3 k hk; rw [e] at this; exact this), ?_, (h4 _ e).hz, (h4 _ e).gz⟩⟩
  intro C hC
  rcases List.mem_append.1 hC with hC | hC
  · exact ⟨(regularChain_iff hn).2 ((h4 _ e).h C hC).1, ((h4 _ e).h C hC).2⟩
  · exact ⟨(regularChain_iff hn).2 ((h4 _ e).g C hC).1, ((h4 _ e).g C hC).2⟩

/-! ## concrete cases -/

/-- `y² − 1`, `x² + xy − 2` -/
def rcT : List (PV Mono ℤ) := [[(exXY 0 2, 1), (exXY 0 0, -1)], [(exXY 2 0, 1), (exXY 1 1, 1), (exXY 0 0, -2)]]

instance rcDec : DecidableEq (List (List (PV Mono ℤ)) × List (List (PV Mono ℤ))) := inferInstance

/-- how the hypotheses are checked on literals -/
theorem zeroDimTri_of {ord : List Var} {T : List (PV Mono ℤ)} (h : T.length ≤ ord.length ∧ ∀ i < T.length, LP (varCustom ord) (T.getD i []) ∧
    (∀ w ∈ pvVars (varCustom ord) (T.getD i []) [], w ∈ ord.reverse.take (i + 1)) ∧ ord.reverse.getD i 0 ∈ pvVars (varCustom ord) (T.getD i []) []) : ZeroDimTri ord T := by
  refine ⟨h.1, fun i hi => ?_⟩
  obtain ⟨h1, h2, h3⟩ := h.2 i hi
  have hio : i < ord.length := by have := h.1; omega
  rw [List.getD_eq_getElem _ _ hi] at h1 h2 h3
  have hv : ∀ w, w ∈ pvVars (varCustom ord) T[i] [] ↔ w ∈ (val T[i]).vars := fun w => by
    rw [mem_pvVars (varCustom_ord ord), polyVars_eq (lex_ord (varCustom_ord ord)) h1]; simp
  exact ⟨h1, fun w hw => h2 w ((hv w).2 hw), (lv_mem_iff hio).2 ((hv _).1 h3)⟩

theorem onlyFirst_of {ord : List Var} {n : ℕ} {f : PV Mono ℤ} (h : LP (varCustom ord) f ∧ ∀ w ∈ pvVars (varCustom ord) f [], w ∈ ord.reverse.take n) : OnlyFirst ord n f := by
  refine ⟨h.1, fun w hw => h.2 w ?_⟩
  rw [mem_pvVars (varCustom_ord ord), polyVars_eq (lex_ord (varCustom_ord ord)) h.1]; exact .inr hw

theorem rcT_tri : ZeroDimTri [1, 2] rcT := zeroDimTri_of (by decide +kernel)

/-- a triangular set; `is_regular` says yes, hence it is a regular chain over every field of characteristic 0, and `x − 1` is a polynomial in its variables -/
example : isRegular (varCustom [1, 2]) true 20 rcT = some (some true) := by decide +kernel

example : OnlyFirst [1, 2] rcT.length [(exXY 1 0, 1), (exXY 0 0, -1)] := onlyFirst_of (by decide +kernel)

/-- it is a regular chain: both initials are 1 -/
theorem rcT_regular (K : Type) [Field K] [CharZero K] : RegularChain K [1, 2] rcT := by
  refine ⟨rcT_tri, fun i hi I hI a _ => ?_⟩
  have hl := lvl0_at (zeroDimTri_iff.1 rcT_tri) hi
  have h := (isInit_iff (by decide) (by simpa only [List.getD_eq_getElem _ _ hi] using hl)).1 hI
  have h1 := (hl.init (by decide)).2.2.1
  rw [(by decide : ∀ i < 2, leadLex (rcT.getD i []) = [(exXY 0 0, 1)]) i hi] at h1
  rw [List.getD_eq_getElem _ _ hi, ← h] at h1
  rw [← h1, val_cons, val_nil, show (exXY 0 0, (1 : ℤ)).1.expo = 0 by simp [exXY, expo]]
  simp

/-- `(y + 1)x + 1` after `y² − 1`: the initial vanishes at `y = −1` -/
example : isRegular (varCustom [1, 2]) true 20 [[(exXY 0 2, 1), (exXY 0 0, -1)], [(exXY 1 1, 1), (exXY 1 0, 1), (exXY 0 0, 1)]] = some (some false) := by
  decide +kernel

/-- `wrsd(rcT, x − 1)`: the zeros `(x, y)` are `(1, 1)`, `(−2, 1)`, `(−1, −1)`, `(2, −1)` -/
example : wrsd [1, 2] true 20 rcT [(exXY 1 0, 1), (exXY 0 0, -1)] = 
    some (some ([[[(exXY 0 1, 1), (exXY 0 0, -1)], [(exXY 1 0, 1), (exXY 0 0, -1)]]],
      [[[(exXY 0 1, 1), (exXY 0 0, 1)], [(exXY 2 0, 1), (exXY 1 1, 1), (exXY 0 0, -2)]], [[(exXY 0 1, 1), (exXY 0 0, -1)], [(exXY 1 0, 1), (exXY 0 1, 1), (exXY 0 0, 1)]]])) := by
  decide +kernel

/-- **the code does not do what one expects**: for the chain `{x⁴ − x³ + x² − 1}` (zeros: 1 and three others) and `f = x³ − x² + x − 1 = (x − 1)(x² + 1)` the code returns `H = {{f}}`, `G = {{x}}`;
neither `±i` nor `0` are zeros of the chain -/
theorem C78_wrsd_wrong :
    let T : List (PV Mono ℤ) := [[(exXY 4 0, 1), (exXY 3 0, -1), (exXY 2 0, 1), (exXY 0 0, -1)]]
    let f : PV Mono ℤ := [(exXY 3 0, 1), (exXY 2 0, -1), (exXY 1 0, 1), (exXY 0 0, -1)]
    (∀ K [Field K] [CharZero K], RegularChain K [1] T) ∧ OnlyFirst [1] 1 f ∧ wrsd [1] false 20 T f = some (some ([[f]], [[[(exXY 1 0, 1)]]])) ∧ wrsd [1] true 20 T f = some none ∧
      ∃ a : Var → ℚ, Zero [[(exXY 1 0, 1)]] a ∧ ¬ Zero T a := by
  intro T f
  have hT : ZeroDimTri [1] T := zeroDimTri_of (by decide +kernel)
  refine ⟨fun K _ _ => (regularChain_iff (by decide)).2 (RC.of_levels (zeroDimTri_iff.1 hT) fun n hn => ?_), onlyFirst_of (by decide +kernel), by decide +kernel, by decide +kernel, fun _ => 0, ?_, ?_⟩
  · obtain rfl : n = 0 := by simpa [T] using hn
    exact reg_zero (lvl0_at (zeroDimTri_iff.1 hT) hn)
  · simp [Zero, val_cons, val_nil, exXY, expo, constantCoeff_monomial]
  · simp [Zero, T, val_cons, val_nil, exXY, expo, constantCoeff_monomial]

end CLPoly
