import Verif.Charset.RegOps
import Verif.Props.Monomials

/-! # Triangular sets and regular chains for a custom order; remainders and iterated resultants -/

namespace CLPoly
namespace Charset
open Mono MvPolynomial Mgcd

/-- the `i`-th smallest listed variable, counted from 0 -/
def lv (ord : List Var) (i : ℕ) : Var := ord.reverse.getD i 0

/-- the `i` smallest listed variables -/
def Lo (ord : List Var) (i : ℕ) : Finset Var := (Finset.range i).image (lv ord)

section order
variable {ord : List Var}

theorem lv_eq {i : ℕ} (hi : i < ord.length) : lv ord i = ord[ord.length - 1 - i] := by
  unfold lv
  rw [List.getD_eq_getElem _ _ (by simpa using hi), List.getElem_reverse]

theorem lv_lt (hn : ord.Nodup) {i j : ℕ} (hj : j < i) (hi : i < ord.length) : varCustom ord (lv ord i) (lv ord j) = true := by
  rw [lv_eq hi, lv_eq (hj.trans hi), (C12_custom_order ord hn).1]
  omega

theorem lv_inj (hn : ord.Nodup) {i j : ℕ} (hi : i < ord.length) (hj : j < ord.length) (h : lv ord i = lv ord j) : i = j := by
  rw [lv_eq hi, lv_eq hj, hn.getElem_inj_iff] at h
  omega

theorem custN_lv (hn : ord.Nodup) {i : ℕ} (hi : i < ord.length) : custN ord (lv ord i) = i + 1 := by
  unfold custN
  rw [lv_eq hi, customMap_eq ord hn _ (by omega), eraseDups_of_nodup hn]
  simp only [Option.getD_some]
  omega

theorem mem_Lo {i : ℕ} {w : Var} : w ∈ Lo ord i ↔ ∃ j < i, lv ord j = w := by simp [Lo]

theorem Lo_mono {i j : ℕ} (h : i ≤ j) : Lo ord i ⊆ Lo ord j := by
  intro w hw
  obtain ⟨k, hk, e⟩ := mem_Lo.1 hw
  exact mem_Lo.2 ⟨k, by omega, e⟩

theorem lv_not_Lo (hn : ord.Nodup) {i j : ℕ} (hij : j ≤ i) (hi : i < ord.length) : lv ord i ∉ Lo ord j := by
  intro h
  obtain ⟨k, hk, e⟩ := mem_Lo.1 h
  have := lv_inj hn (by omega) hi e
  omega

theorem Lo_free {i : ℕ} {p : MvPolynomial Var ℤ} (h : p.vars ⊆ Lo ord (i + 1)) (hf : lv ord i ∉ p.vars) : p.vars ⊆ Lo ord i := by
  intro w hw
  obtain ⟨k, hk, rfl⟩ := mem_Lo.1 (h hw)
  rcases Nat.lt_succ_iff_lt_or_eq.1 hk with h1 | rfl
  · exact mem_Lo.2 ⟨k, h1, rfl⟩
  · exact absurd hw hf

theorem Lo_zero {p : MvPolynomial Var ℤ} (h : p.vars ⊆ Lo ord 0) : p.vars = ∅ := by
  rw [Finset.eq_empty_iff_forall_notMem]
  intro w hw
  have := h hw
  simp [Lo] at this

/-- a polynomial in the `i + 1` smallest variables that contains the greatest of them has it as main variable -/
theorem lo_main (hn : ord.Nodup) {i : ℕ} (hi : i < ord.length) {p : MvPolynomial Var ℤ} (h : p.vars ⊆ Lo ord (i + 1)) (hm : lv ord i ∈ p.vars) : IsMain (varCustom ord) p (lv ord i) := by
  refine ⟨hm, fun w hw => ?_⟩
  obtain ⟨k, hk, rfl⟩ := mem_Lo.1 (h hw)
  rcases Nat.lt_succ_iff_lt_or_eq.1 hk with h1 | rfl
  · exact .inr (lv_lt hn h1 hi)
  · exact .inl rfl

/-- the main variable of a polynomial that is not a number -/
theorem lo_first (hn : ord.Nodup) {i : ℕ} (hi : i ≤ ord.length) {p : PV Mono ℤ} (hp : LP (varCustom ord) p) (h : (val p).vars ⊆ Lo ord i) (hnum : isNumber p = false) :
    ∃ j < i, pFirstVar p = lv ord j ∧ (val p).vars ⊆ Lo ord (j + 1) ∧ lv ord j ∈ (val p).vars := by
  have ho := varCustom_ord ord
  obtain ⟨hm, -⟩ := main_spec ho hp hnum
  obtain ⟨j, hj, e⟩ := mem_Lo.1 (h hm.1)
  refine ⟨j, hj, e.symm, fun w hw => ?_, by rw [e]; exact hm.1⟩
  obtain ⟨k, hk, rfl⟩ := mem_Lo.1 (h hw)
  refine mem_Lo.2 ⟨k, ?_, rfl⟩
  by_contra hc
  have h1 := lv_lt hn (i := k) (j := j) (by omega) (by omega)
  rcases hm.2 _ hw with h2 | h2
  · have := lv_inj hn (by omega) (by omega) (h2.trans e.symm); omega
  · rw [← e, asymm ho h1] at h2; exact absurd h2 (by simp)

end order

/-- `a` is a zero of all elements of `T` -/
def Zr {K : Type*} [Field K] (T : List (PV Mono ℤ)) (a : Var → K) : Prop := ∀ t ∈ T, aeval a (val t) = 0

/-- an element of a triangular set after the elements `A`: its main variable is the next variable -/
structure Lvl0 (ord : List Var) (A : List (PV Mono ℤ)) (t : PV Mono ℤ) : Prop where
  len : A.length < ord.length
  ok : LP (varCustom ord) t
  vars : (val t).vars ⊆ Lo ord (A.length + 1)
  main : lv ord A.length ∈ (val t).vars

/-- the initial of `t` vanishes at no zero of `A` -/
def Reg (K : Type*) [Field K] (ord : List Var) (A : List (PV Mono ℤ)) (t : PV Mono ℤ) : Prop := ∀ a : Var → K, Zr A a → aeval a (toU (lv ord A.length) (val t)).leadingCoeff ≠ 0

/-- zero-dimensional triangular set -/
def TC (ord : List Var) (T : List (PV Mono ℤ)) : Prop := ∀ A t B, T = A ++ t :: B → Lvl0 ord A t

/-- regular chain over `K` -/
def RC (K : Type*) [Field K] (ord : List Var) (T : List (PV Mono ℤ)) : Prop := TC ord T ∧ ∀ A t B, T = A ++ t :: B → Reg K ord A t

section chains
variable {K : Type*} [Field K] {ord : List Var}

theorem Zr.nil {a : Var → K} : Zr [] a := fun _ h => by simp at h
theorem Zr.append {A B : List (PV Mono ℤ)} {a : Var → K} : Zr (A ++ B) a ↔ Zr A a ∧ Zr B a := by
  unfold Zr
  simp only [List.mem_append]
  exact ⟨fun h => ⟨fun t ht => h t (.inl ht), fun t ht => h t (.inr ht)⟩, fun h t ht => ht.elim (h.1 t) (h.2 t)⟩
theorem Zr.single {t : PV Mono ℤ} {a : Var → K} : Zr [t] a ↔ aeval a (val t) = 0 := by simp [Zr]

theorem TC.nil : TC ord [] := fun A t B e => by simp at e
theorem TC.pre {A B : List (PV Mono ℤ)} (h : TC ord (A ++ B)) : TC ord A := fun C t D e => h C t (D ++ B) (by rw [e]; simp)
theorem TC.take {T : List (PV Mono ℤ)} (h : TC ord T) (n : ℕ) : TC ord (T.take n) := TC.pre (B := T.drop n) (by rwa [List.take_append_drop])

theorem split_snoc {α : Type*} {A C D : List α} {t s : α} (h : A ++ [t] = C ++ s :: D) : (D = [] ∧ A = C ∧ t = s) ∨ ∃ D', D = D' ++ [t] ∧ A = C ++ s :: D' := by
  rcases List.eq_nil_or_concat D with rfl | ⟨D', z, rfl⟩
  · obtain ⟨h1, h2⟩ := List.append_inj' h rfl
    exact .inl ⟨rfl, h1, by simpa using h2⟩
  · rw [List.concat_eq_append, ← List.cons_append, ← List.append_assoc] at h
    obtain ⟨h1, h2⟩ := List.append_inj' h rfl
    have : t = z := by simpa using h2
    exact .inr ⟨D', by rw [this, List.concat_eq_append], h1⟩

theorem TC.snoc {A : List (PV Mono ℤ)} {t : PV Mono ℤ} : TC ord (A ++ [t]) ↔ TC ord A ∧ Lvl0 ord A t := by
  constructor
  · exact fun h => ⟨h.pre, h A t [] rfl⟩
  · rintro ⟨h1, h2⟩ C s D e
    rcases split_snoc e with ⟨rfl, rfl, rfl⟩ | ⟨D', rfl, e'⟩
    · exact h2
    · exact h1 _ _ _ e'

theorem RC.nil : RC K ord [] := ⟨TC.nil, fun A t B e => by simp at e⟩
theorem RC.pre {A B : List (PV Mono ℤ)} (h : RC K ord (A ++ B)) : RC K ord A := ⟨h.1.pre, fun C t D e => h.2 C t (D ++ B) (by rw [e]; simp)⟩
theorem RC.take {T : List (PV Mono ℤ)} (h : RC K ord T) (n : ℕ) : RC K ord (T.take n) := RC.pre (B := T.drop n) (by rwa [List.take_append_drop])
theorem RC.snoc {A : List (PV Mono ℤ)} {t : PV Mono ℤ} : RC K ord (A ++ [t]) ↔ RC K ord A ∧ Lvl0 ord A t ∧ Reg K ord A t := by
  constructor
  · exact fun h => ⟨h.pre, h.1 A t [] rfl, h.2 A t [] rfl⟩
  · rintro ⟨h1, h2, h3⟩
    refine ⟨TC.snoc.2 ⟨h1.1, h2⟩, fun C s D e => ?_⟩
    rcases split_snoc e with ⟨rfl, rfl, rfl⟩ | ⟨D', rfl, e'⟩
    · exact h3
    · exact h1.2 _ _ _ e'

/-- the first elements may be replaced by a chain with fewer zeros -/
theorem RC.replace {A' : List (PV Mono ℤ)} (hA : RC K ord A') : ∀ {A B : List (PV Mono ℤ)}, RC K ord (A ++ B) → A'.length = A.length → (∀ a : Var → K, Zr A' a → Zr A a) →
    RC K ord (A' ++ B) := by
  intro A B
  induction B using List.reverseRecOn with
  | nil => intro _ _ _; simpa using hA
  | append_singleton B t ih =>
    intro h hl hz
    rw [← List.append_assoc] at h ⊢
    rw [RC.snoc] at h ⊢
    obtain ⟨h1, h2, h3⟩ := h
    have e : (A' ++ B).length = (A ++ B).length := by simp [hl]
    refine ⟨ih h1 hl hz, ⟨by rw [e]; exact h2.len, h2.ok, by rw [e]; exact h2.vars, by rw [e]; exact h2.main⟩, fun a ha => ?_⟩
    rw [e]
    rw [Zr.append] at ha
    exact h3 a (Zr.append.2 ⟨hz a ha.1, ha.2⟩)

theorem TC.len {T : List (PV Mono ℤ)} (h : TC ord T) : T.length ≤ ord.length := by
  rcases List.eq_nil_or_concat T with rfl | ⟨A, t, rfl⟩
  · simp
  · rw [List.concat_eq_append] at h ⊢
    have := (TC.snoc.1 h).2.len
    simp; omega

theorem Lvl0.isMain (hn : ord.Nodup) {A : List (PV Mono ℤ)} {t : PV Mono ℤ} (h : Lvl0 ord A t) : IsMain (varCustom ord) (val t) (lv ord A.length) := lo_main hn h.len h.vars h.main
theorem Lvl0.num (hn : ord.Nodup) {A : List (PV Mono ℤ)} {t : PV Mono ℤ} (h : Lvl0 ord A t) : isNumber t = false ∧ pFirstVar t = lv ord A.length :=
  main_num (varCustom_ord ord) h.ok (h.isMain hn)
theorem Lvl0.ne {A : List (PV Mono ℤ)} {t : PV Mono ℤ} (h : Lvl0 ord A t) : t ≠ [] := by
  intro e
  have := h.main
  rw [e, val_nil, vars_0] at this
  simp at this
theorem Lvl0.val_ne {A : List (PV Mono ℤ)} {t : PV Mono ℤ} (h : Lvl0 ord A t) : val t ≠ 0 := by
  intro e
  have := h.main
  rw [e, vars_0] at this
  simp at this
theorem Lvl0.deg_pos {A : List (PV Mono ℤ)} {t : PV Mono ℤ} (h : Lvl0 ord A t) : 0 < (val t).degreeOf (lv ord A.length) := by
  rw [Nat.pos_iff_ne_zero, Ne, degreeOf_zero_iff]; exact not_not.2 h.main

/-- the initial -/
theorem Lvl0.init (hn : ord.Nodup) {A : List (PV Mono ℤ)} {t : PV Mono ℤ} (h : Lvl0 ord A t) :
    LP (varCustom ord) (leadLex t) ∧ leadLex t ≠ [] ∧ val (leadLex t) = (toU (lv ord A.length) (val t)).leadingCoeff ∧ (val (leadLex t)).vars ⊆ Lo ord A.length := by
  obtain ⟨h1, h2⟩ := h.num hn
  obtain ⟨k1, k2, -, k4⟩ := lead_spec (varCustom_ord ord) h.ok h1
  rw [h2] at k4
  refine ⟨k1, k2, k4, Lo_free (fun w hw => h.vars ?_) ?_⟩
  · rw [k4, Polynomial.leadingCoeff] at hw
    exact (toU_coeff _ _ _).vars_subset hw
  · rw [k4, Polynomial.leadingCoeff]
    exact free_coeff _ _ _

end chains

/-! ## values at a point -/

section point
variable {K : Type*} [Field K]

/-- substitution of all variables -/
noncomputable abbrev ev (a : Var → K) : MvPolynomial Var ℤ →+* K := (aeval a : MvPolynomial Var ℤ →ₐ[ℤ] K).toRingHom

theorem ev_eval (a : Var → K) (x : Var) (p : MvPolynomial Var ℤ) : ((toU x p).map (ev a)).eval (a x) = aeval a p := by
  have h := congrArg (ev a) (toU_eval x p)
  rw [← Polynomial.eval_map_apply, show (ev a) (X x) = a x by simp [ev]] at h
  exact h

theorem ev_natDegree {a : Var → K} {x : Var} {p : MvPolynomial Var ℤ} (h : aeval a (toU x p).leadingCoeff ≠ 0) : ((toU x p).map (ev a)).natDegree = p.degreeOf x := by
  rw [Polynomial.natDegree_map_of_leadingCoeff_ne_zero _ h, natDegree_toU]

theorem ev_ne {a : Var → K} {x : Var} {p : MvPolynomial Var ℤ} (h : aeval a (toU x p).leadingCoeff ≠ 0) : (toU x p).map (ev a) ≠ 0 := by
  intro e
  have := congrArg (Polynomial.coeff · (toU x p).natDegree) e
  simp only [Polynomial.coeff_map, Polynomial.coeff_zero] at this
  exact h this

/-- pseudo-division by a polynomial of the level, at a zero of it -/
theorem pseudo_zero {a : Var → K} {x : Var} {isL : Bool} {G F Q S : MvPolynomial Var ℤ} (h : IsPseudo x isL G F Q S) (hl : aeval a (toU x F).leadingCoeff ≠ 0) (hF : aeval a F = 0) :
    aeval a S = 0 ↔ aeval a G = 0 := by
  obtain ⟨⟨L, e, hL, -, -, heq⟩, -⟩ := h
  have hL' : aeval a L ≠ 0 := by rw [isCoeff_iff.1 hL, ← natDegree_toU]; exact hl
  have := congrArg (aeval a) heq
  rw [map_mul, map_add, map_mul, map_pow, hF, mul_zero, zero_add] at this
  rw [← this]
  constructor
  · intro h; exact (mul_eq_zero.1 h).resolve_left (pow_ne_zero _ hL')
  · intro h; rw [h, mul_zero]

/-- pseudo-division by a polynomial of higher degree -/
theorem pseudo_trivial {x : Var} {G F Q S : MvPolynomial Var ℤ} (h : IsPseudo x true G F Q S) (hd : G.degreeOf x < F.degreeOf x) : S = G := by
  obtain ⟨⟨L, e, hL, -, he, heq⟩, hS⟩ := h
  rw [he rfl, show G.degreeOf x + 1 - F.degreeOf x = 0 by omega, pow_zero, one_mul] at heq
  have hF : F ≠ 0 := by rintro rfl; simp at hd
  have hQ : Q = 0 := by
    by_contra hQ
    have h1 : (Q * F).degreeOf x = Q.degreeOf x + F.degreeOf x := degreeOf_mul_dom hQ hF
    have h2 : Q * F = G - S := by rw [heq]; ring
    have h3 : (G - S).degreeOf x ≤ max (G.degreeOf x) (S.degreeOf x) := degreeOf_sub_le _ _ _
    rcases hS with rfl | hS
    · rw [h2, sub_zero] at h1; omega
    · rw [h2] at h1; omega
  rw [heq, hQ, zero_mul, zero_add]

/-- the pseudo-quotient by a polynomial that divides at a point -/
theorem pquo_level {x : Var} {G F Q S : MvPolynomial Var ℤ} (h : IsPseudo x true G F Q S) {m d : ℕ} (hm : G.degreeOf x = m) (hd : F.degreeOf x = d) (hd0 : 0 < d) (hdm : d ≤ m) :
    Q.degreeOf x = m - d ∧ (∀ V : Finset Var, G.vars ⊆ V → F.vars ⊆ V → Q.vars ⊆ V) ∧
    ∀ a : Var → K, aeval a (toU x F).leadingCoeff ≠ 0 → aeval a (toU x G).leadingCoeff ≠ 0 → (toU x F).map (ev a) ∣ (toU x G).map (ev a) →
      aeval a (toU x Q).leadingCoeff ≠ 0 ∧ (aeval a G = 0 ↔ aeval a Q = 0 ∨ aeval a F = 0) := by
  have hp := h
  obtain ⟨⟨L, e, hL, -, -, heq⟩, hS⟩ := h
  have hL' : L = (toU x F).leadingCoeff := by rw [isCoeff_iff.1 hL, Polynomial.leadingCoeff, natDegree_toU]
  have F0 : F ≠ 0 := by rintro rfl; simp at hd; omega
  have G0 : G ≠ 0 := by rintro rfl; simp at hm; omega
  have L0 : L ≠ 0 := by rw [hL']; exact Polynomial.leadingCoeff_ne_zero.2 (toU_ne_zero F0)
  have hLx : x ∉ (L ^ e).vars := fun hc => hL.not_vars (vars_pow _ _ hc)
  have hS' : (toU x S).degree < (toU x (L ^ e * G)).degree := by
    rw [map_mul, toU_free hLx, Polynomial.degree_C_mul (pow_ne_zero _ L0), Polynomial.degree_eq_natDegree (toU_ne_zero G0), natDegree_toU, hm]
    rcases hS with rfl | hS
    · rw [map_zero, Polynomial.degree_zero]; exact WithBot.bot_lt_coe _
    · refine lt_of_le_of_lt Polynomial.degree_le_natDegree ?_
      rw [natDegree_toU]
      exact_mod_cast (by omega : S.degreeOf x < m)
  have e1 : toU x Q * toU x F = toU x (L ^ e * G) - toU x S := by rw [heq, map_add, map_mul]; ring
  have e2 : (toU x Q * toU x F).leadingCoeff = (toU x (L ^ e * G)).leadingCoeff := by rw [e1, Polynomial.leadingCoeff_sub_of_degree_lt hS']
  have e3 : (toU x Q * toU x F).degree = (toU x (L ^ e * G)).degree := by rw [e1, Polynomial.degree_sub_eq_left_of_degree_lt hS']
  have Q0 : Q ≠ 0 := by
    rintro rfl
    rw [map_zero, zero_mul, Polynomial.degree_zero, eq_comm, Polynomial.degree_eq_bot] at e3
    exact toU_ne_zero (mul_ne_zero (pow_ne_zero _ L0) G0) e3
  rw [map_mul, toU_free hLx, Polynomial.leadingCoeff_mul, Polynomial.leadingCoeff_mul, Polynomial.leadingCoeff_C] at e2
  refine ⟨?_, fun V hG hF => ?_, fun a hFa hGa hdv => ?_⟩
  · have := Polynomial.natDegree_eq_of_degree_eq e3
    rw [Polynomial.natDegree_mul (toU_ne_zero Q0) (toU_ne_zero F0), natDegree_toU, natDegree_toU, map_mul, toU_free hLx, Polynomial.natDegree_C_mul (pow_ne_zero _ L0), natDegree_toU, hm, hd] at this
    omega
  · have h1 : Q ∣ L ^ e * G - S := ⟨F, by rw [heq]; ring⟩
    have h2 : L ^ e * G - S ≠ 0 := by
      rw [heq, add_sub_cancel_right]; exact mul_ne_zero Q0 F0
    refine (vars_of_dvd h1 h2).trans ((vars_sub_subset _).trans (Finset.union_subset ((vars_mul _ _).trans (Finset.union_subset ((vars_pow _ _).trans (hL.vars_subset.trans hF)) hG)) ?_))
    exact pseudo_vars hp (by omega) hG hF
  · have hLa : aeval a L ≠ 0 := by rw [hL']; exact hFa
    have s0 : (toU x S).map (ev a) = 0 := by
      by_contra hne
      have h1 : (toU x F).map (ev a) ∣ (toU x S).map (ev a) := by
        have : (toU x S).map (ev a) = ((toU x (L ^ e * G)).map (ev a)) - ((toU x Q).map (ev a)) * (toU x F).map (ev a) := by
          rw [← Polynomial.map_mul, ← Polynomial.map_sub, e1, sub_sub_cancel]
        rw [this, map_mul, Polynomial.map_mul]
        exact dvd_sub (Dvd.dvd.mul_left hdv _) (Dvd.intro_left _ rfl)
      have h2 := Polynomial.natDegree_le_of_dvd h1 hne
      rw [ev_natDegree hFa, hd] at h2
      have h3 := (Polynomial.natDegree_map_le (f := ev a) (p := toU x S))
      rw [natDegree_toU] at h3
      rcases hS with rfl | hS
      · exact hne (by rw [map_zero, Polynomial.map_zero])
      · omega
    have sa : aeval a S = 0 := by rw [← ev_eval a x, s0, Polynomial.eval_zero]
    constructor
    · have := congrArg (aeval a) e2
      rw [map_mul, map_mul, map_pow] at this
      intro hq
      rw [hq, zero_mul, eq_comm, mul_eq_zero] at this
      exact this.elim (pow_ne_zero _ hLa) hGa
    · have := congrArg (aeval a) heq
      rw [map_mul, map_add, map_mul, map_pow, sa, add_zero] at this
      rw [← mul_eq_zero, ← this, mul_eq_zero]
      exact ⟨.inr, fun h => h.resolve_left (pow_ne_zero _ hLa)⟩

end point

/-! ## remainders -/

section rem
variable {K : Type*} [Field K] {ord : List Var}

/-- what the remainder by a chain is -/
structure RedOut (K : Type*) [Field K] (ord : List Var) (T : List (PV Mono ℤ)) (f g : PV Mono ℤ) : Prop where
  ok : LP (varCustom ord) g
  vars : ∀ i, T.length ≤ i → (val f).vars ⊆ Lo ord i → (val g).vars ⊆ Lo ord i
  red : ∀ A c B, T = A ++ c :: B → (val g).degreeOf (lv ord A.length) < (val c).degreeOf (lv ord A.length)
  deg : ∀ i, T.length ≤ i → i < ord.length → (val g).degreeOf (lv ord i) ≤ (val f).degreeOf (lv ord i)
  zero : ∀ a : Var → K, Zr T a → (aeval a (val g) = 0 ↔ aeval a (val f) = 0)

theorem redChain_snoc (vc : Var → Var → Bool) (chk : Bool) (T : List (PV Mono ℤ)) (c f : PV Mono ℤ) :
    redChain vc chk (T ++ [c]) f = bind2 (if isReduced vc f c = true then ok2 f else premD vc chk (pFirstVar c) f c) (redChain vc chk T) := by
  induction T with
  | nil =>
    simp only [redChain, List.nil_append, List.foldr_cons, List.foldr_nil]
    rw [show ∀ F : PV Mono ℤ → O2 (PV Mono ℤ), bind2 (ok2 f) F = F f from fun _ => rfl]
    generalize (if isReduced vc f c = true then ok2 f else premD vc chk (pFirstVar c) f c) = o
    rcases o with - | - | o <;> rfl
  | cons d T ih =>
    show bind2 (redChain vc chk (T ++ [c]) f) _ = _
    rw [ih]
    generalize (if isReduced vc f c = true then ok2 f else premD vc chk (pFirstVar c) f c) = o
    rcases o with - | - | o <;> rfl

theorem remChain_snoc (vc : Var → Var → Bool) (chk : Bool) (T : List (PV Mono ℤ)) (c f : PV Mono ℤ) :
    remChain vc chk (T ++ [c]) f = bind2 (premD vc chk (pFirstVar c) f c) (remChain vc chk T) := by
  induction T with
  | nil =>
    simp only [remChain, List.nil_append, List.foldr_cons, List.foldr_nil]
    rw [show ∀ F : PV Mono ℤ → O2 (PV Mono ℤ), bind2 (ok2 f) F = F f from fun _ => rfl]
    generalize premD vc chk (pFirstVar c) f c = o
    rcases o with - | - | o <;> rfl
  | cons d T ih =>
    show bind2 (remChain vc chk (T ++ [c]) f) _ = _
    rw [ih]
    generalize premD vc chk (pFirstVar c) f c = o
    rcases o with - | - | o <;> rfl

/-- one division -/
theorem rem_step (hn : ord.Nodup) {T : List (PV Mono ℤ)} {c f S : PV Mono ℤ} (hT : RC K ord (T ++ [c])) (hf : LP (varCustom ord) f)
    (h : S = f ∧ (val f).degreeOf (lv ord T.length) < (val c).degreeOf (lv ord T.length) ∨ premD (varCustom ord) true (pFirstVar c) f c = some (some S)) :
    LP (varCustom ord) S ∧ (∀ i, T.length < i → (val f).vars ⊆ Lo ord i → (val S).vars ⊆ Lo ord i) ∧ (val S).degreeOf (lv ord T.length) < (val c).degreeOf (lv ord T.length) ∧
      (∀ i, T.length < i → i < ord.length → (val S).degreeOf (lv ord i) ≤ (val f).degreeOf (lv ord i)) ∧
      ∀ a : Var → K, Zr (T ++ [c]) a → (aeval a (val S) = 0 ↔ aeval a (val f) = 0) := by
  have ho := varCustom_ord ord
  obtain ⟨-, hc, hr⟩ := RC.snoc.1 hT
  rcases h with ⟨rfl, hd⟩ | h
  · exact ⟨hf, fun i _ h => h, hd, fun _ _ _ => le_rfl, fun _ _ => Iff.rfl⟩
  rw [(hc.num hn).2] at h
  obtain ⟨r, e, hr'⟩ := premD_spec ho (v := lv ord T.length) hf hc.ok hc.ne
  rw [e] at h
  obtain ⟨h1, Q, -, hp⟩ := hr' S (Option.some.inj h)
  refine ⟨h1, fun i hi hv => pseudo_vars hp hc.deg_pos hv (hc.vars.trans (Lo_mono hi)), ?_, fun i hi hl => pseudo_deg hp (fun hm => lv_not_Lo hn hi hl (hc.vars hm)) hc.deg_pos, fun a ha => ?_⟩
  · rcases hp.2 with e | e
    · rw [e, degreeOf_zero]; exact hc.deg_pos
    · exact e
  · rw [Zr.append, Zr.single] at ha
    exact pseudo_zero hp (hr a ha.1) ha.2

theorem isReduced_lt (hn : ord.Nodup) {T : List (PV Mono ℤ)} {c f : PV Mono ℤ} (hc : Lvl0 ord T c) (hf : LP (varCustom ord) f) (h : isReduced (varCustom ord) f c = true) :
    (val f).degreeOf (lv ord T.length) < (val c).degreeOf (lv ord T.length) := by
  have ho := varCustom_ord ord
  by_cases h0 : f = []
  · rw [h0, val_nil, degreeOf_zero]; exact hc.deg_pos
  obtain ⟨-, v, hv, h1⟩ := (isReduced_iff ho hf hc.ok h0).1 h
  rwa [hv.unique ho (hc.isMain hn)] at h1

theorem redChain_out (hn : ord.Nodup) : ∀ {T : List (PV Mono ℤ)} {f : PV Mono ℤ}, RC K ord T → LP (varCustom ord) f →
    ∃ r, redChain (varCustom ord) true T f = some r ∧ ∀ g, r = some g → RedOut K ord T f g := by
  intro T
  induction T using List.reverseRecOn with
  | nil =>
    intro f _ hf
    refine ⟨some f, rfl, fun g e => ?_⟩
    cases e
    exact ⟨hf, fun _ _ h => h, fun A c B e => by simp at e, fun _ _ _ => le_rfl, fun _ _ => Iff.rfl⟩
  | append_singleton T c ih =>
    intro f hT hf
    rw [redChain_snoc]
    obtain ⟨hT', hc, hr⟩ := RC.snoc.1 hT
    obtain ⟨r, e, hstep⟩ : ∃ r, (if isReduced (varCustom ord) f c = true then ok2 f else premD (varCustom ord) true (pFirstVar c) f c) = some r ∧
        ∀ S, r = some S → (S = f ∧ (val f).degreeOf (lv ord T.length) < (val c).degreeOf (lv ord T.length) ∨ premD (varCustom ord) true (pFirstVar c) f c = some (some S)) := by
      split
      · rename_i h
        exact ⟨some f, rfl, fun S e => .inl ⟨(Option.some.inj e).symm, isReduced_lt hn hc hf h⟩⟩
      · exact ⟨_, rfl, fun S e => .inr (by unfold premD; rw [e])⟩
    rw [e]
    cases r with
    | none => exact ⟨none, rfl, fun g e => by cases e⟩
    | some S =>
      obtain ⟨s1, s2, s3, s4, s5⟩ := rem_step hn hT hf (hstep S rfl)
      obtain ⟨r, e1, e2⟩ := ih hT' s1
      refine ⟨r, e1, fun g hg => ?_⟩
      have h := e2 g hg
      refine ⟨h.ok, fun i hi hv => ?_, fun A d B e => ?_, fun i hi hl => ?_, fun a ha => ?_⟩
      · rw [List.length_append, List.length_singleton] at hi
        exact h.vars i (by omega) (s2 i (by omega) hv)
      · rcases split_snoc e with ⟨rfl, rfl, rfl⟩ | ⟨D', rfl, e'⟩
        · exact lt_of_le_of_lt (h.deg _ le_rfl hc.len) s3
        · exact h.red A d D' e'
      · rw [List.length_append, List.length_singleton] at hi
        exact (h.deg i (by omega) hl).trans (s4 i (by omega) hl)
      · exact (h.zero a (Zr.append.1 ha).1).trans (s5 a ha)

/-- a reduced polynomial is its own remainder -/
theorem redChain_id (hn : ord.Nodup) : ∀ {T : List (PV Mono ℤ)} {f : PV Mono ℤ}, TC ord T → LP (varCustom ord) f →
    (∀ A c B, T = A ++ c :: B → (val f).degreeOf (lv ord A.length) < (val c).degreeOf (lv ord A.length)) →
    redChain (varCustom ord) true T f = some none ∨ redChain (varCustom ord) true T f = ok2 f := by
  intro T
  have ho := varCustom_ord ord
  induction T using List.reverseRecOn with
  | nil => intro f _ _ _; exact .inr rfl
  | append_singleton T c ih =>
    intro f hT hf hd
    rw [redChain_snoc]
    obtain ⟨hT', hc⟩ := TC.snoc.1 hT
    have h1 : (if isReduced (varCustom ord) f c = true then ok2 f else premD (varCustom ord) true (pFirstVar c) f c) = some none ∨
        (if isReduced (varCustom ord) f c = true then ok2 f else premD (varCustom ord) true (pFirstVar c) f c) = ok2 f := by
      split
      · exact .inr rfl
      · rw [(hc.num hn).2]
        obtain ⟨r, e, hr⟩ := premD_spec ho (v := lv ord T.length) hf hc.ok hc.ne
        rw [e]
        cases r with
        | none => exact .inl rfl
        | some S =>
          obtain ⟨h1, Q, -, hp⟩ := hr S rfl
          have := pseudo_trivial hp (hd T c [] rfl)
          rw [h1.ext (lex_ord ho) hf this]
          exact .inr rfl
    rcases h1 with h1 | h1
    · rw [h1]; exact .inl rfl
    · rw [h1]
      exact ih hT' hf fun A d B e => hd A d (B ++ [c]) (by rw [e]; simp)

theorem remChain_out (hn : ord.Nodup) : ∀ {T : List (PV Mono ℤ)} {f : PV Mono ℤ}, RC K ord T → LP (varCustom ord) f →
    ∃ r, remChain (varCustom ord) true T f = some r ∧ ∀ g, r = some g → RedOut K ord T f g := by
  intro T
  induction T using List.reverseRecOn with
  | nil =>
    intro f _ hf
    refine ⟨some f, rfl, fun g e => ?_⟩
    cases e
    exact ⟨hf, fun _ _ h => h, fun A c B e => by simp at e, fun _ _ _ => le_rfl, fun _ _ => Iff.rfl⟩
  | append_singleton T c ih =>
    intro f hT hf
    rw [remChain_snoc]
    obtain ⟨hT', hc, hr⟩ := RC.snoc.1 hT
    cases hp : premC (varCustom ord) true true (pFirstVar c) f c with
    | none => exact ⟨none, by unfold premD; rw [hp]; rfl, fun g e => by cases e⟩
    | some S =>
      obtain ⟨s1, s2, s3, s4, s5⟩ := rem_step hn hT hf (.inr (by unfold premD; rw [hp]))
      obtain ⟨r, e1, e2⟩ := ih hT' s1
      refine ⟨r, by unfold premD; rw [hp]; exact e1, fun g hg => ?_⟩
      have h := e2 g hg
      refine ⟨h.ok, fun i hi hv => ?_, fun A d B e => ?_, fun i hi hl => ?_, fun a ha => ?_⟩
      · rw [List.length_append, List.length_singleton] at hi
        exact h.vars i (by omega) (s2 i (by omega) hv)
      · rcases split_snoc e with ⟨rfl, rfl, rfl⟩ | ⟨D', rfl, e'⟩
        · exact lt_of_le_of_lt (h.deg _ le_rfl hc.len) s3
        · exact h.red A d D' e'
      · rw [List.length_append, List.length_singleton] at hi
        exact (h.deg i (by omega) hl).trans (s4 i (by omega) hl)
      · exact (h.zero a (Zr.append.1 ha).1).trans (s5 a ha)

end rem

/-! ## iterated resultants -/

section res
variable {K : Type*} [Field K] {ord : List Var}

theorem iterRes_snoc (vc : Var → Var → Bool) (chk : Bool) (fuel : ℕ) (T : List (PV Mono ℤ)) (c f : PV Mono ℤ) :
    iterRes vc chk fuel (T ++ [c]) f = bind2 (resC vc chk fuel f c (pFirstVar c)) (iterRes vc chk fuel T) := by
  induction T with
  | nil =>
    simp only [iterRes, List.nil_append, List.foldr_cons, List.foldr_nil]
    rw [show ∀ F : PV Mono ℤ → O2 (PV Mono ℤ), bind2 (ok2 f) F = F f from fun _ => rfl]
    generalize resC vc chk fuel f c (pFirstVar c) = o
    rcases o with - | - | o <;> rfl
  | cons d T ih =>
    show bind2 (iterRes vc chk fuel (T ++ [c]) f) _ = _
    rw [ih]
    generalize resC vc chk fuel f c (pFirstVar c) = o
    rcases o with - | - | o <;> rfl

theorem iterResB_snoc (vc : Var → Var → Bool) (chk : Bool) (fuel : ℕ) (T : List (PV Mono ℤ)) (c f : PV Mono ℤ) :
    iterResB vc chk fuel (T ++ [c]) f = bind2 (if f = [] then ok2 [] else resC vc chk fuel f c (pFirstVar c)) (iterResB vc chk fuel T) := by
  induction T with
  | nil =>
    simp only [iterResB, List.nil_append, List.foldr_cons, List.foldr_nil]
    rw [show ∀ F : PV Mono ℤ → O2 (PV Mono ℤ), bind2 (ok2 f) F = F f from fun _ => rfl]
    generalize (if f = [] then ok2 [] else resC vc chk fuel f c (pFirstVar c)) = o
    rcases o with - | - | o <;> rfl
  | cons d T ih =>
    show bind2 (iterResB vc chk fuel (T ++ [c]) f) _ = _
    rw [ih]
    generalize (if f = [] then ok2 [] else resC vc chk fuel f c (pFirstVar c)) = o
    rcases o with - | - | o <;> rfl

/-- one resultant, at a common zero -/
theorem resOut_zero {vc : Var → Var → Bool} {v : Var} {F G r : PV Mono ℤ} (h : ResOut vc v F G r) (hd : 0 < (val G).degreeOf v) {a : Var → K} (hF : aeval a (val F) = 0)
    (hG : aeval a (val G) = 0) : aeval a (val r) = 0 := by
  have G0 : val G ≠ 0 := by intro e; rw [e, degreeOf_zero] at hd; omega
  by_cases F0 : val F = 0
  · rw [h.zero (.inl F0), map_zero]
  obtain ⟨p, q, e⟩ := Res.resultant_comb (v := v) (f := val F) (g := val G) (.inr (by omega))
  rw [natDegree_toU, natDegree_toU, ← h.eq F0 G0] at e
  rw [e, map_add, map_mul, map_mul, hF, hG, mul_zero, mul_zero, add_zero]

theorem resOut_vars {T : List (PV Mono ℤ)} {c f r : PV Mono ℤ} (hc : Lvl0 ord T c) (hf : (val f).vars ⊆ Lo ord (T.length + 1)) (h : ResOut (varCustom ord) (lv ord T.length) f c r) :
    (val r).vars ⊆ Lo ord T.length := by
  refine Lo_free (fun w hw => ?_) h.free
  by_contra hn
  have h1 := h.deg w
  rw [degreeOf_zero_iff.2 fun hm => hn (hf hm), degreeOf_zero_iff.2 fun hm => hn (hc.vars hm)] at h1
  rw [mul_zero, mul_zero, add_zero, Nat.le_zero, degreeOf_zero_iff] at h1
  exact h1 hw

/-- the iterated resultant: a number, zero if there is a common zero -/
structure IterOut (K : Type*) [Field K] (ord : List Var) (T : List (PV Mono ℤ)) (f r : PV Mono ℤ) : Prop where
  ok : LP (varCustom ord) r
  num : (val r).vars = ∅
  zero : ∀ a : Var → K, Zr T a → aeval a (val f) = 0 → aeval a (val r) = 0

theorem iterRes_conv (hn : ord.Nodup) : ∀ {T : List (PV Mono ℤ)} {f : PV Mono ℤ}, TC ord T → LP (varCustom ord) f → (val f).vars ⊆ Lo ord T.length →
    Conv (fun k => iterRes (varCustom ord) true k T f) (IterOut K ord T f) := by
  intro T
  have ho := varCustom_ord ord
  induction T using List.reverseRecOn with
  | nil => intro f _ hf hv; exact Conv.ok ⟨hf, Lo_zero hv, fun a _ h => h⟩
  | append_singleton T c ih =>
    intro f hT hf hv
    obtain ⟨hT', hc⟩ := TC.snoc.1 hT
    simp only [iterRes_snoc, (hc.num hn).2]
    rw [List.length_append, List.length_singleton] at hv
    refine (resC_conv ho hf hc.ok _).bind fun r hr => (ih hT' hr.ok (resOut_vars hc hv hr)).mono fun s hs => ⟨hs.ok, hs.num, fun a ha h => ?_⟩
    rw [Zr.append, Zr.single] at ha
    exact hs.zero a ha.1 (resOut_zero hr hc.deg_pos h ha.2)

theorem iterResB_conv (hn : ord.Nodup) : ∀ {T : List (PV Mono ℤ)} {f : PV Mono ℤ}, TC ord T → LP (varCustom ord) f → (val f).vars ⊆ Lo ord T.length →
    Conv (fun k => iterResB (varCustom ord) true k T f) (IterOut K ord T f) := by
  intro T
  have ho := varCustom_ord ord
  induction T using List.reverseRecOn with
  | nil => intro f _ hf hv; exact Conv.ok ⟨hf, Lo_zero hv, fun a _ h => h⟩
  | append_singleton T c ih =>
    intro f hT hf hv
    obtain ⟨hT', hc⟩ := TC.snoc.1 hT
    simp only [iterResB_snoc, (hc.num hn).2]
    rw [List.length_append, List.length_singleton] at hv
    by_cases h0 : f = []
    · simp only [if_pos h0]
      have hnil : LP (varCustom ord) ([] : PV Mono ℤ) := h0 ▸ hf
      refine (Conv.ok (P := (· = [])) rfl).bind fun r hr => (ih hT' (hr ▸ hnil) (by rw [hr, val_nil, vars_0]; simp)).mono fun s hs => ⟨hs.ok, hs.num, fun a ha h => ?_⟩
      rw [Zr.append] at ha
      exact hs.zero a ha.1 (by rw [hr, val_nil, map_zero])
    · simp only [if_neg h0]
      refine (resC_conv ho hf hc.ok _).bind fun r hr => (ih hT' hr.ok (resOut_vars hc hv hr)).mono fun s hs => ⟨hs.ok, hs.num, fun a ha h => ?_⟩
      rw [Zr.append, Zr.single] at ha
      exact hs.zero a ha.1 (resOut_zero hr hc.deg_pos h ha.2)

/-- the iterated resultant is not zero: no common zero -/
theorem IterOut.ne {T : List (PV Mono ℤ)} {f r : PV Mono ℤ} (h : IterOut K ord T f r) (hr : r ≠ []) [CharZero K] {a : Var → K} (ha : Zr T a) : aeval a (val f) ≠ 0 := by
  intro e
  exact const_ne a h.num (fun h0 => hr ((h.ok.val_eq_zero (lex_ord (varCustom_ord ord))).1 h0)) (h.zero a ha e)

end res

end Charset
end CLPoly
