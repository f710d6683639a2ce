import Verif.Charset.Basset
import Verif.Poly.ScalarSpec
import Mathlib.RingTheory.Ideal.Span
import Mathlib.Order.WellQuasiOrder
import Mathlib.Order.ConditionallyCompleteLattice.Basic
import Mathlib.Data.ENat.Basic

/-! # Remainders by a chain, `charset` -/

namespace CLPoly
namespace Charset
open Mono MvPolynomial Mgcd

variable {vc : Var → Var → Bool} {R : Type*} [CommRing R] [IsDomain R] [DecidableEq R]

/-! ## pseudo-remainders -/

omit [IsDomain R] in
theorem premFits_ok (ho : VarOrd vc) {v : Var} {G F : PV Mono R} (hG : LP vc G) (hF : LP vc F) (h : premFits vc v G F = true) : PremFits v (val G) (val F) := by
  obtain ⟨-, c2, c3⟩ := commonVars ho hG.monos hF.monos
  rw [polyVars_eq (lex_ord ho) hG, polyVars_eq (lex_ord ho) hF] at c2 c3
  unfold premFits at h
  dsimp only at h
  rw [c3, Bool.and_eq_true, decide_eq_true_iff, List.all_eq_true] at h
  obtain ⟨h1, h2⟩ := h
  rw [degreeLex_spec ho hG] at h1
  refine ⟨h1, fun w hw => ?_⟩
  by_cases hm : w ∈ (val G).vars ∪ (val F).vars
  · have := h2 w ((c2 w).2 hm)
    simp only [hw, decide_false, Bool.false_or, decide_eq_true_iff, degreeLex_spec ho hG, degreeLex_spec ho hF] at this
    have e : ((((val G).degreeOf v : ℤ) + 1 - ((val F).degreeOf v : ℤ)).toNat : ℤ) = (((val G).degreeOf v + 1 - (val F).degreeOf v : ℕ) : ℤ) := by omega
    rw [e] at this
    push_cast at this ⊢
    exact this
  · rw [Finset.mem_union, not_or, ← degreeOf_zero_iff, ← degreeOf_zero_iff] at hm
    rw [hm.1, hm.2, Nat.mul_zero, Nat.zero_add]
    exact_mod_cast capLex_pos _

theorem premC_spec (ho : VarOrd vc) {isL : Bool} {v : Var} {G F S : PV Mono R} (hG : LP vc G) (hF : LP vc F) (hne : F ≠ [])
    (h : premC vc true isL v G F = some S) : LP vc S ∧ ∃ Q, LP vc Q ∧ IsPseudo v isL (val G) (val F) (val Q) (val S) := by
  unfold premC at h
  by_cases hf : premFits vc v G F = true
  · rw [hf] at h
    obtain ⟨Q, S', -, e, hQ, hS, hp⟩ := pquoLexEntry_spec ho isL hG hF hne (premFits_ok ho hG hF hf)
    simp [e] at h
    subst h
    exact ⟨hS, Q, hQ, hp⟩
  · simp [hf] at h

omit [IsDomain R] in
theorem premC_code {isL : Bool} {v : Var} {G F S : PV Mono R} {chk : Bool} (h : premC vc chk isL v G F = some S) : premC vc false isL v G F = some S := by
  cases chk with
  | false => exact h
  | true =>
    unfold premC at *
    by_cases hf : premFits vc v G F = true
    · simpa [hf] using h
    · simp [hf] at h

/-- pseudo-division does not raise the degree in a variable that the divisor does not contain -/
theorem pseudo_deg {isL : Bool} {v u : Var} {G F Q S : MvPolynomial Var R} (h : IsPseudo v isL G F Q S) (hu : u ∉ F.vars) (h0 : 0 < F.degreeOf v) :
    S.degreeOf u ≤ G.degreeOf u := by
  obtain ⟨⟨L, e, hL, -, -, heq⟩, hS⟩ := h
  by_cases s0 : S = 0
  · rw [s0, degreeOf_zero]; exact Nat.zero_le _
  replace hS := hS.resolve_left s0
  have F0 : F ≠ 0 := by rintro rfl; simp at h0
  have huL : u ∉ (L ^ e).vars := fun hm => hu (hL.vars_subset (vars_pow _ _ hm))
  rw [← natDegree_toU, ← natDegree_toU, Polynomial.natDegree_le_iff_coeff_eq_zero]
  intro i hi
  have h1 := congrArg (fun f => (toU u f).coeff i) heq
  simp only [map_mul, map_add, toU_free huL, toU_free hu, Polynomial.coeff_C_mul, Polynomial.coeff_mul_C, Polynomial.coeff_add] at h1
  rw [Polynomial.coeff_eq_zero_of_natDegree_lt hi, mul_zero] at h1
  by_contra hne
  have hQ : (toU u Q).coeff i ≠ 0 := by
    intro hz
    rw [hz, zero_mul, zero_add] at h1
    exact hne h1.symm
  have h2 : (toU u S).coeff i = - ((toU u Q).coeff i * F) := by linear_combination -h1
  have h3 : ((toU u S).coeff i).degreeOf v ≤ S.degreeOf v := (toU_coeff u i S).degreeOf_le
  have h4 : ((toU u S).coeff i).degreeOf v = ((toU u Q).coeff i).degreeOf v + F.degreeOf v := by
    rw [h2, ← degreeOf_mul_dom hQ F0]
    unfold degreeOf
    rw [degrees_neg]
  omega

theorem pseudo_vars {isL : Bool} {v : Var} {G F Q S : MvPolynomial Var R} (h : IsPseudo v isL G F Q S) (h0 : 0 < F.degreeOf v) {V : Finset Var}
    (hG : G.vars ⊆ V) (hF : F.vars ⊆ V) : S.vars ⊆ V := by
  intro u hu
  by_contra hn
  have h1 := pseudo_deg h (fun hm => hn (hF hm)) h0
  rw [degreeOf_zero_iff.2 (fun hm => hn (hG hm)), Nat.le_zero, degreeOf_zero_iff] at h1
  exact h1 hu

/-! ## the remainder by a chain -/

/-- the products of initials of `C` -/
noncomputable def inits (vc : Var → Var → Bool) (C : List (MvPolynomial Var R)) : Submonoid (MvPolynomial Var R) := Submonoid.closure {I | ∃ c ∈ C, IsInit vc c I}

/-- the ideal generated by `C` -/
noncomputable def idl (C : List (MvPolynomial Var R)) : Ideal (MvPolynomial Var R) := Ideal.span {c | c ∈ C}

omit [IsDomain R] [DecidableEq R] in
theorem idl_mono {C D : List (MvPolynomial Var R)} (h : ∀ c ∈ C, c ∈ D) : idl C ≤ idl D := Ideal.span_mono h

omit [IsDomain R] [DecidableEq R] in
theorem inits_mono {C D : List (MvPolynomial Var R)} (h : ∀ c ∈ C, c ∈ D) : inits vc C ≤ inits vc D :=
  Submonoid.closure_mono fun _ ⟨c, hc, hI⟩ => ⟨c, h c hc, hI⟩

theorem main_pos {f : MvPolynomial Var R} {v : Var} (h : IsMain vc f v) : 0 < f.degreeOf v := by
  rw [Nat.pos_iff_ne_zero, Ne, degreeOf_zero_iff]; exact not_not.2 h.1

theorem chainRem_spec (ho : VarOrd vc) {f : PV Mono R} (hf : LP vc f) : ∀ {C : List (PV Mono R)} {g : PV Mono R}, (∀ c ∈ C, LP vc c) → AscChain vc (C.map val) →
    chainRem vc true C f = some g → LP vc g ∧ (∀ c ∈ C, (val g).degreeOf (pFirstVar c) < (val c).degreeOf (pFirstVar c)) ∧
      (∀ V : Finset Var, (val f).vars ⊆ V → (∀ c ∈ C, (val c).vars ⊆ V) → (val g).vars ⊆ V) ∧
      ∃ m ∈ inits vc (C.map val), m * val f - val g ∈ idl (C.map val) := by
  intro C
  induction C with
  | nil =>
    intro g _ _ h
    simp only [chainRem, List.foldr_nil, Option.some.injEq] at h
    subst h
    exact ⟨hf, by simp, fun V h _ => h, 1, one_mem _, by simp [idl]⟩
  | cons c C ih =>
    intro g hC hA h
    have h' : (chainRem vc true C f).bind (fun g => premC vc true false (pFirstVar c) g c) = some g := h
    obtain ⟨g', e1, e2⟩ := Option.bind_eq_some_iff.1 h'
    have hA' : AscChain vc (C.map val) := ⟨fun d hd => hA.1 d (List.mem_cons_of_mem _ hd), (List.pairwise_cons.1 hA.2).2⟩
    obtain ⟨i1, i2, i3, m, hm, i4⟩ := ih (fun d hd => hC d (List.mem_cons_of_mem _ hd)) hA' e1
    have hc := hC c (by simp)
    have hcn : isNumber c = false := (num_false ho hc).2 (hA.1 _ (by simp))
    obtain ⟨mc, -⟩ := main_spec ho hc hcn
    have hcpos := main_pos mc
    have cne : c ≠ [] := by rintro rfl; simp [isNumber] at hcn
    obtain ⟨o1, Q, -, o2⟩ := premC_spec ho i1 hc cne e2
    refine ⟨o1, ?_, ?_, ?_⟩
    · intro d hd
      rcases List.mem_cons.1 hd with rfl | hd
      · rcases o2.2 with z | z
        · rw [z, degreeOf_zero]; exact hcpos
        · exact z
      · refine lt_of_le_of_lt (pseudo_deg o2 ?_ hcpos) (i2 d hd)
        obtain ⟨-, v, w, hv, hw, hvw⟩ := (List.pairwise_cons.1 hA.2).1 (val d) (List.mem_map.2 ⟨d, hd, rfl⟩)
        have e : pFirstVar d = w := (main_num ho (hC d (List.mem_cons_of_mem _ hd)) hw).2
        rw [e]
        intro hmem
        rcases hv.2 w hmem with rfl | hh
        · rw [ho.irrefl w trivial] at hvw; exact absurd hvw (by simp)
        · rw [asymm ho hvw] at hh; exact absurd hh (by simp)
    · intro V hV hCV
      exact pseudo_vars o2 hcpos (i3 V hV fun d hd => hCV d (List.mem_cons_of_mem _ hd)) (hCV c (by simp))
    · obtain ⟨⟨L, e, hL, -, -, heq⟩, -⟩ := o2
      have hLI : L ^ e ∈ inits vc ((c :: C).map val) := by
        refine pow_mem (Submonoid.subset_closure ?_) _
        exact ⟨val c, by simp, _, mc, hL⟩
      refine ⟨L ^ e * m, mul_mem hLI (inits_mono (by simp +contextual) hm), ?_⟩
      have k1 : L ^ e * (m * val f - val g') ∈ idl ((c :: C).map val) := Ideal.mul_mem_left _ _ (idl_mono (by simp +contextual) i4)
      have k2 : val Q * val c ∈ idl ((c :: C).map val) := Ideal.mul_mem_left _ _ (Ideal.subset_span (by simp))
      have : L ^ e * m * val f - val g = L ^ e * (m * val f - val g') + val Q * val c := by linear_combination heq
      rw [this]
      exact add_mem k1 k2

omit [IsDomain R] in
theorem chainRem_code {chk : Bool} {f : PV Mono R} : ∀ {C : List (PV Mono R)} {g : PV Mono R}, chainRem vc chk C f = some g → chainRem vc false C f = some g := by
  intro C
  induction C with
  | nil => intro g h; exact h
  | cons c C ih =>
    intro g h
    have h' : (chainRem vc chk C f).bind (fun g => premC vc chk false (pFirstVar c) g c) = some g := h
    obtain ⟨g', e1, e2⟩ := Option.bind_eq_some_iff.1 h'
    show (chainRem vc false C f).bind (fun g => premC vc false false (pFirstVar c) g c) = some g
    rw [ih e1]
    exact premC_code e2

/-! ## the set -/

variable {gt : R → R → Bool}

omit [IsDomain R] in
theorem mem_setInsert (ho : VarOrd vc) (hg : Lawful (fun _ : R => True) gt) {x : PV Mono R} (hx : LP vc x) : ∀ {F : List (PV Mono R)}, (∀ f ∈ F, LP vc f) →
    ∀ {y}, y ∈ setInsert vc gt x F ↔ y = x ∨ y ∈ F := by
  intro F
  induction F with
  | nil => intro _ y; simp [setInsert]
  | cons f F ih =>
    intro hF y
    have hf := hF f (by simp)
    unfold setInsert
    split
    · simp
    split
    · rw [List.mem_cons, ih (fun z hz => hF z (List.mem_cons_of_mem _ hz)), List.mem_cons]; tauto
    · rename_i h1 h2
      have : x = f := by
        by_contra hne
        rcases pvComp_total_of (lex_ord ho).lawful hg f x hf.monos hx.monos (Ne.symm hne) with h | h
        · exact h1 h
        · exact h2 h
      rw [this]; simp

omit [IsDomain R] in
theorem mem_insertAll (ho : VarOrd vc) (hg : Lawful (fun _ : R => True) gt) : ∀ {L F : List (PV Mono R)}, (∀ f ∈ L, LP vc f) → (∀ f ∈ F, LP vc f) →
    ∀ {y}, y ∈ L.foldl (fun s x => setInsert vc gt x s) F ↔ y ∈ L ∨ y ∈ F := by
  intro L
  induction L with
  | nil => intro F _ _ y; simp
  | cons x L ih =>
    intro F hL hF y
    have hx := hL x (by simp)
    rw [List.foldl_cons, ih (fun z hz => hL z (List.mem_cons_of_mem _ hz)) fun z hz => by
      rcases (mem_setInsert ho hg hx hF).1 hz with rfl | hz
      · exact hx
      · exact hF z hz]
    rw [mem_setInsert ho hg hx hF, List.mem_cons]; tauto

end Charset
end CLPoly
