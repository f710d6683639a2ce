import Verif.Gcd.ExtDefs
import Verif.Charset.Chain
import Verif.Wang.LiftTotal

/-! # The extended greatest common divisor: proofs -/

namespace CLPoly
namespace GcdExt
open Mono MvPolynomial Mgcd Charset Mtshl

/-! ## outcomes -/

/-- the computation ends; if `full`, it is not given up; results satisfy `P` -/
def Tot {α : Type} (full : Prop) (o : O2 α) (P : α → Prop) : Prop := ∃ r, o = some r ∧ (full → r ≠ none) ∧ ∀ a, r = some a → P a

section
variable {α β : Type} {full : Prop} {P : α → Prop} {Q : β → Prop}

theorem Tot.ok {a : α} (h : P a) : Tot full (ok2 a) P := ⟨some a, rfl, fun _ => by simp, fun _ e => by cases e; exact h⟩
theorem Tot.bind {o : O2 α} {f : α → O2 β} (h : Tot full o P) (hf : ∀ a, P a → Tot full (f a) Q) : Tot full (bind2 o f) Q := by
  obtain ⟨r, rfl, h1, h2⟩ := h
  cases r with
  | none => exact ⟨none, rfl, fun hf => absurd rfl (h1 hf), by simp⟩
  | some a => exact hf a (h2 a rfl)
theorem Tot.mono {o : O2 α} {P' : α → Prop} (h : Tot full o P) (hP : ∀ a, P a → P' a) : Tot full o P' := by
  obtain ⟨r, h0, h1, h2⟩ := h
  exact ⟨r, h0, h1, fun a e => hP a (h2 a e)⟩

/-- results of the first computation are results of the second -/
def Le (o o' : O2 α) : Prop := ∀ a, o = some (some a) → o' = some (some a)
theorem Le.rfl' {o : O2 α} : Le o o := fun _ h => h
theorem Le.bind {o o' : O2 α} {f f' : α → O2 β} (h : Le o o') (hf : ∀ a, Le (f a) (f' a)) : Le (bind2 o f) (bind2 o' f') := by
  intro b hb
  match o, h, hb with
  | none, _, hb => exact absurd hb (by simp [bind2])
  | some none, _, hb => exact absurd hb (by simp [bind2])
  | some (some a), h, hb =>
    rw [h a rfl]
    exact hf a b hb
theorem Le.guard {p : Prop} [Decidable p] {o : O2 α} : Le (if p then some none else o) o := by
  intro a h
  by_cases hp : p
  · rw [if_pos hp] at h; cases h
  · rw [if_neg hp] at h; exact h
end

/-! ## checked runs are runs of the code -/

section
variable {vc : Var → Var → Bool}

theorem mulE_le (p q : PV Mono ℤ) : Le (mulE true vc p q) (mulE false vc p q) := by
  unfold mulE
  rw [if_neg (c := false = true ∧ _) (by simp)]
  exact Le.guard
theorem divE_le (v : Var) (p q : PV Mono ℤ) : Le (divE true vc v p q) (divE false vc v p q) := by
  unfold divE
  rw [if_neg (c := (false && _) = true) (by simp)]
  exact Le.guard
theorem lcPow_le (lc : PV Mono ℤ) : ∀ (k : ℕ) (p : PV Mono ℤ), Le (lcPow true vc lc k p) (lcPow false vc lc k p)
  | 0, _ => Le.rfl'
  | k + 1, p => (mulE_le p lc).bind fun _ => lcPow_le lc k _
theorem comb_le (l a q b : PV Mono ℤ) : Le (comb true vc l a q b) (comb false vc l a q b) :=
  (mulE_le l a).bind fun _ => (mulE_le q b).bind fun _ => Le.rfl'
theorem loop_le (v : Var) : ∀ (n : ℕ) (r0 r1 s0 s1 t0 t1 : PV Mono ℤ), Le (loop true vc v n r0 r1 s0 s1 t0 t1) (loop false vc v n r0 r1 s0 s1 t0 t1)
  | 0, _, _, _, _, _, _ => Le.rfl'
  | n + 1, r0, r1, s0, s1, t0, t1 => by
    unfold loop
    by_cases h : r1 ≠ []
    · rw [if_pos h, if_pos h]
      exact (divE_le v r0 r1).bind fun d => (lcPow_le _ _ _).bind fun lp => (comb_le _ _ _ _).bind fun s2 => (comb_le _ _ _ _).bind fun t2 => loop_le v n _ _ _ _ _ _
    · rw [if_neg h, if_neg h]
      exact Le.rfl'
theorem fixSign_le (r : PV Mono ℤ × PV Mono ℤ × PV Mono ℤ) : Le (fixSign true vc r) (fixSign false vc r) := by
  unfold fixSign
  split
  · exact Le.rfl'
  · split
    · exact (mulE_le _ _).bind fun _ => (mulE_le _ _).bind fun _ => (mulE_le _ _).bind fun _ => Le.rfl'
    · exact Le.rfl'
theorem gcdExt_le (F G : PV Mono ℤ) : Le (gcdExt true vc F G) (gcdExt false vc F G) := by
  unfold gcdExt
  split
  · exact Le.rfl'
  · exact Le.rfl'
  · dsimp only
    split
    · exact Le.rfl'
    · split
      · exact Le.rfl'
      · exact (loop_le _ _ _ _ _ _ _ _).bind fun r => fixSign_le r

/-! ## operations -/

theorem mkC_ok (a : ℤ) : LP vc (mkC a) ∧ val (mkC a) = C a := by
  unfold mkC
  by_cases h : a ≠ 0
  · rw [if_pos h]
    refine ⟨PolyOK.single one_valid h, ?_⟩
    simp [val_cons, val_nil, expo_one]
  · rw [if_neg h]
    push Not at h
    exact ⟨.nil, by rw [val_nil, h, C_0]⟩

/-- only the variable `v`, degree at most `d` -/
def U (v : Var) (d : ℕ) (p : MvPolynomial Var ℤ) : Prop := p.vars ⊆ {v} ∧ p.degreeOf v ≤ d

theorem U.mul {v : Var} {d e : ℕ} {p q : MvPolynomial Var ℤ} (hp : U v d p) (hq : U v e q) : U v (d + e) (p * q) :=
  ⟨(vars_mul _ _).trans (Finset.union_subset hp.1 hq.1), (degreeOf_mul_le _ _ _).trans (add_le_add hp.2 hq.2)⟩
theorem U.sub {v : Var} {d : ℕ} {p q : MvPolynomial Var ℤ} (hp : U v d p) (hq : U v d q) : U v d (p - q) :=
  ⟨(vars_sub_subset _).trans (Finset.union_subset hp.1 hq.1), (degreeOf_sub_le _ _ _).trans (max_le hp.2 hq.2)⟩
theorem U.mono {v : Var} {d e : ℕ} {p : MvPolynomial Var ℤ} (hp : U v d p) (h : d ≤ e) : U v e p := ⟨hp.1, hp.2.trans h⟩
theorem U.C {v : Var} (a : ℤ) : U v 0 (C a) := ⟨by rw [vars_C]; simp, by rw [degreeOf_C]⟩
theorem U.pow {v : Var} {p : MvPolynomial Var ℤ} (hp : U v 0 p) : ∀ k : ℕ, U v 0 (p ^ k)
  | 0 => by rw [pow_zero]; exact U.C 1
  | k + 1 => by rw [pow_succ]; exact (U.pow hp k).mul hp

theorem cap_one {v : Var} {W : Finset Var} (h : W ⊆ {v}) : capLex W.card = 2 ^ 63 := by
  unfold capLex
  rw [if_pos (by simpa using Finset.card_le_card h)]

theorem U.deg {v w : Var} {d : ℕ} {p : MvPolynomial Var ℤ} (hp : U v d p) : p.degreeOf w ≤ d := by
  by_cases h : w ∈ p.vars
  · have := hp.1 h
    rw [Finset.mem_singleton] at this
    rw [this]; exact hp.2
  · rw [degreeOf_zero_iff.2 h]; exact Nat.zero_le _

variable {full : Prop} (ho : VarOrd vc)

include ho in
theorem mulE_spec {p q : PV Mono ℤ} (hp : LP vc p) (hq : LP vc q) (hf : full → ∃ v d e, U v d (val p) ∧ U v e (val q) ∧ d + e < 2 ^ 63) :
    Tot full (mulE true vc p q) fun r => LP vc r ∧ val r = val p * val q := by
  have M := lex_ord ho
  unfold mulE
  by_cases h : true = true ∧ fitsMul p q = false
  · rw [if_pos h]
    refine ⟨none, rfl, fun hfull => ?_, by simp⟩
    exfalso
    obtain ⟨v, d, e, h1, h2, h3⟩ := hf hfull
    have hfit : fitsMul p q = true := by
      unfold fitsMul
      refine List.all_eq_true.2 fun t ht => List.all_eq_true.2 fun u hu => List.all_eq_true.2 fun z _ => decide_eq_true ?_
      rw [polyVars_eq M hp, polyVars_eq M hq, degIn_eq ho (hp.monos t ht).sorted, degIn_eq ho (hq.monos u hu).sorted, cap_one (v := v) (Finset.union_subset h1.1 h2.1)]
      have k1 := hp.exp_le M ht z.1
      have k2 := hq.exp_le M hu z.1
      have k3 := h1.deg (w := z.1)
      have k4 := h2.deg (w := z.1)
      omega
    rw [hfit] at h
    simp at h
  · rw [if_neg h]
    have hfit : p.length ≤ 1 ∨ q.length ≤ 1 ∨ MulFits vc (FitsLex vc) p q := by
      by_cases h1 : p = []
      · left; rw [h1]; simp
      by_cases h2 : q = []
      · right; left; rw [h2]; simp
      right; right
      refine mulFits_lex ho hp.monos hq.monos h1 h2 fun x hx y hy v => ?_
      have hf : fitsMul p q = true := by simpa using h
      have h3 := List.all_eq_true.1 (List.all_eq_true.1 (List.all_eq_true.1 hf x hx) y hy)
      by_cases h4 : ∃ z ∈ x.1.data ++ y.1.data, z.1 = v
      · obtain ⟨z, hz, rfl⟩ := h4
        exact of_decide_eq_true (h3 z hz)
      · push Not at h4
        rw [degIn_eq ho (hp.monos x hx).sorted, degIn_eq ho (hq.monos y hy).sorted, E_not_mem fun z hz => h4 z (List.mem_append_left _ hz), E_not_mem fun z hz => h4 z (List.mem_append_right _ hz)]
        exact capLex_pos _
    obtain ⟨out, h1, h2, h3⟩ := polyMul_spec (codeLex_ok (R := ℤ) ho) hp hq hfit
    rw [h1]
    exact ⟨some out, rfl, fun _ => by simp, fun a e => by cases e; exact ⟨h2, h3⟩⟩

include ho in
theorem divE_spec {v : Var} {G F : PV Mono ℤ} (hG : LP vc G) (hF : LP vc F) (hne : F ≠ []) (hf : full → ∃ d e, U v d (val G) ∧ U v e (val F) ∧ d < 2 ^ 63) :
    Tot full (divE true vc v G F) fun r => LP vc r.1 ∧ LP vc r.2 ∧ IsPseudo v true (val G) (val F) (val r.1) (val r.2) := by
  have M := lex_ord ho
  unfold divE
  by_cases h : premFits vc v G F = true
  · obtain ⟨Q, S, e, -, hQ, hS, hp⟩ := pquoLexEntry_spec ho true hG hF hne (premFits_ok ho hG hF h)
    refine ⟨some (Q, S), by simp [h, e], fun _ => by simp, fun a e => ?_⟩
    cases e
    exact ⟨hQ, hS, hp⟩
  · refine ⟨none, by simp [h], fun hfull => ?_, by simp⟩
    exfalso
    apply h
    obtain ⟨d, e, h1, h2, h3⟩ := hf hfull
    obtain ⟨-, c2, c3⟩ := commonVars ho hG.monos hF.monos
    rw [polyVars_eq M hG, polyVars_eq M hF] at c2 c3
    unfold premFits
    dsimp only
    have hc := cap_one (v := v) (Finset.union_subset h1.1 h2.1)
    unfold capLex at hc
    rw [c3, hc, Bool.and_eq_true, decide_eq_true_iff, List.all_eq_true, degreeLex_spec ho hG]
    refine ⟨by have := h1.2; omega, fun w hw => ?_⟩
    have := Finset.union_subset h1.1 h2.1 ((c2 w).1 hw)
    rw [Finset.mem_singleton] at this
    simp [this]

include ho in
theorem lcPow_spec {lc : PV Mono ℤ} (hl : LP vc lc) {v : Var} (hL : full → U v 0 (val lc)) : ∀ (k : ℕ) {p : PV Mono ℤ}, LP vc p → (full → U v 0 (val p)) →
    Tot full (lcPow true vc lc k p) fun r => LP vc r ∧ val r = val p * val lc ^ k
  | 0, p, hp, _ => Tot.ok ⟨hp, by rw [pow_zero, mul_one]⟩
  | k + 1, p, hp, hu => by
    refine (mulE_spec ho hp hl fun h => ⟨v, 0, 0, hu h, hL h, by norm_num⟩).bind fun q hq => ?_
    rw [nrm_id ho hq.1]
    refine (lcPow_spec hl hL k hq.1 fun h => ?_).mono fun r hr => ⟨hr.1, ?_⟩
    · rw [hq.2]; exact (hu h).mul (hL h)
    · rw [hr.2, hq.2, pow_succ]; ring

include ho in
theorem comb_spec {l a q b : PV Mono ℤ} (hl : LP vc l) (ha : LP vc a) (hq : LP vc q) (hb : LP vc b)
    (hf : full → ∃ v d, U v 0 (val l) ∧ U v d (val a) ∧ d < 2 ^ 63 ∧ ∃ e f, U v e (val q) ∧ U v f (val b) ∧ e + f < 2 ^ 63) :
    Tot full (comb true vc l a q b) fun r => LP vc r ∧ val r = val l * val a - val q * val b := by
  refine (mulE_spec ho hl ha fun h => ?_).bind fun x hx => (mulE_spec ho hq hb fun h => ?_).bind fun y hy => Tot.ok ?_
  · obtain ⟨v, d, h1, h2, h3, -⟩ := hf h
    exact ⟨v, 0, d, h1, h2, by omega⟩
  · obtain ⟨v, d, -, -, -, e, f, h1, h2, h3⟩ := hf h
    exact ⟨v, e, f, h1, h2, h3⟩
  · rw [nrm_id ho (hx.1.sub (lex_ord ho) hy.1), val_pvSub, hx.2, hy.2]
    exact ⟨hx.1.sub (lex_ord ho) hy.1, rfl⟩

/-- the variables of quotient and remainder -/
theorem pseudo_vars {v : Var} {G F Q S : MvPolynomial Var ℤ} (h : IsPseudo v true G F Q S) (hF : F ≠ 0) : S.vars ⊆ G.vars ∪ F.vars ∧ Q.vars ⊆ G.vars ∪ F.vars := by
  have hS : S.vars ⊆ G.vars ∪ F.vars := by
    intro u hu
    by_contra hn
    rw [Finset.mem_union, not_or] at hn
    by_cases h0 : 0 < F.degreeOf v
    · have := pseudo_deg h hn.2 h0
      rw [degreeOf_zero_iff.2 hn.1, Nat.le_zero, degreeOf_zero_iff] at this
      exact this hu
    · rcases h.2 with h2 | h2
      · rw [h2] at hu; simp at hu
      · omega
  refine ⟨hS, ?_⟩
  obtain ⟨⟨L, e, hL, -, -, heq⟩, -⟩ := h
  intro u hu
  by_contra hn
  have hq : Q * F ≠ 0 := mul_ne_zero (by rintro rfl; simp at hu) hF
  have hd := degreeOf_mul_dom (v := u) (f := Q) (g := F) (by rintro rfl; simp at hu) hF
  have h3 : u ∉ (Q * F).vars := by
    have : Q * F = L ^ e * G - S := by rw [heq]; ring
    rw [this]
    intro hm
    rcases Finset.mem_union.1 (vars_sub_subset _ hm) with h4 | h4
    · rcases Finset.mem_union.1 (vars_mul _ _ h4) with h5 | h5
      · exact hn (Finset.mem_union_right _ (hL.vars_subset (vars_pow _ _ h5)))
      · exact hn (Finset.mem_union_left _ h5)
    · exact hn (hS h4)
  rw [← degreeOf_zero_iff] at h3
  rw [h3] at hd
  have : Q.degreeOf u = 0 := by omega
  exact degreeOf_zero_iff.1 this hu

/-- the degree of the quotient -/
theorem pseudo_quo {v : Var} {G F Q S : MvPolynomial Var ℤ} (h : IsPseudo v true G F Q S) (hF : F ≠ 0) (hq : Q ≠ 0) : Q.degreeOf v + F.degreeOf v ≤ G.degreeOf v := by
  obtain ⟨⟨L, e, hL, -, -, heq⟩, hS⟩ := h
  have hd := degreeOf_mul_dom (v := v) (f := Q) (g := F) hq hF
  have e1 : Q * F = L ^ e * G - S := by rw [heq]; ring
  have h1 : (L ^ e * G).degreeOf v ≤ G.degreeOf v := by
    refine (degreeOf_mul_le _ _ _).trans ?_
    have : (L ^ e).degreeOf v ≤ e * L.degreeOf v := degreeOf_pow_le _ _ _
    rw [hL.degreeOf] at this
    omega
  have h2 := degreeOf_sub_le v (L ^ e * G) S
  rw [← e1, hd] at h2
  rcases hS with h3 | h3
  · rw [h3, degreeOf_zero] at h2
    omega
  · rcases le_max_iff.1 h2 with h4 | h4 <;> omega

/-! ## the loop -/

/-- what the loop returns for `r0`, `r1` -/
def LoopOut (vc : Var → Var → Bool) (v : Var) (F G r0 r1 : MvPolynomial Var ℤ) (r : PV Mono ℤ × PV Mono ℤ × PV Mono ℤ) : Prop :=
  LP vc r.1 ∧ LP vc r.2.1 ∧ LP vc r.2.2 ∧ r.1 ≠ [] ∧ val r.2.1 * F + val r.2.2 * G = val r.1 ∧
    ∃ a : MvPolynomial Var ℤ, a ≠ 0 ∧ v ∉ a.vars ∧ a.vars ⊆ r0.vars ∪ r1.vars ∧ val r.1 ∣ a * r0 ∧ val r.1 ∣ a * r1

/-- the cofactors in the case of one variable -/
def Bd (v : Var) (D : ℕ) (r0 r1 s0 s1 : MvPolynomial Var ℤ) : Prop :=
  ∃ d0 d1, U v d0 s0 ∧ U v d1 s1 ∧ d0 + r1.degreeOf v ≤ D ∧ d1 + r0.degreeOf v ≤ D

theorem Bd.next {v : Var} {D : ℕ} {r0 r1 s0 s1 s2 l q r2 : MvPolynomial Var ℤ} (h : Bd v D r0 r1 s0 s1) (hp : IsPseudo v true r0 r1 q r2) (h1 : r1 ≠ 0) (hv1 : r1.vars ⊆ {v}) (hv0 : r0.vars ⊆ {v})
    (hl : U v 0 l) (e : s2 = l * s0 - q * s1) : Bd v D r1 r2 s1 s2 := by
  obtain ⟨d0, d1, u0, u1, b0, b1⟩ := h
  have hqv : q.vars ⊆ {v} := (pseudo_vars hp h1).2.trans (Finset.union_subset hv0 hv1)
  have hr2 : r2.degreeOf v ≤ r0.degreeOf v := by
    rcases hp.2 with h3 | h3
    · rw [h3, degreeOf_zero]; omega
    · by_contra hc
      obtain ⟨⟨L, k, hL, -, hk, heq⟩, -⟩ := hp
      have hk := hk rfl
      have hz : q = 0 := by
        by_contra hq0
        have := pseudo_quo ⟨⟨L, k, hL, by omega, fun _ => hk, heq⟩, .inr h3⟩ h1 hq0
        omega
      have k0 : k = 0 := by omega
      rw [k0, hz, pow_zero, one_mul, zero_mul, zero_add] at heq
      rw [heq] at hc
      omega
  refine ⟨d1, D - r1.degreeOf v, u1, ?_, by omega, by omega⟩
  rw [e]
  refine U.sub ((hl.mul u0).mono (by omega)) ?_
  by_cases hq : q = 0
  · rw [hq, zero_mul]
    exact ⟨by simp, by simp⟩
  · have := pseudo_quo hp h1 hq
    exact (U.mul (d := q.degreeOf v) ⟨hqv, le_rfl⟩ u1).mono (by omega)

include ho in
theorem loop_spec {v : Var} {F G : MvPolynomial Var ℤ} {D : ℕ} (hD : full → D < 2 ^ 62) : ∀ (n : ℕ) {r0 r1 s0 s1 t0 t1 : PV Mono ℤ}, LP vc r0 → LP vc r1 → LP vc s0 → LP vc s1 → LP vc t0 → LP vc t1 → r0 ≠ [] →
    (r1 ≠ [] → (val r1).degreeOf v + 1 ≤ n) → val s0 * F + val t0 * G = val r0 → val s1 * F + val t1 * G = val r1 →
    (full → (val r0).vars ⊆ {v} ∧ (val r1).vars ⊆ {v} ∧ Bd v D (val r0) (val r1) (val s0) (val s1) ∧ Bd v D (val r0) (val r1) (val t0) (val t1)) →
    Tot full (loop true vc v n r0 r1 s0 s1 t0 t1) fun r => LoopOut vc v F G (val r0) (val r1) r ∧ (full → U v D (val r.1) ∧ U v D (val r.2.1) ∧ U v D (val r.2.2))
  | n, r0, r1, s0, s1, t0, t1, k0, k1, ks0, ks1, kt0, kt1, hne, hn, e0, e1, hf => by
    have M := lex_ord ho
    by_cases h : r1 = []
    · have hout : LoopOut vc v F G (val r0) (val r1) (r0, s0, t0) := by
        refine ⟨k0, ks0, kt0, hne, e0, 1, one_ne_zero, ?_, ?_, by rw [one_mul], ?_⟩
        · rw [← C_1, vars_C]; simp
        · rw [← C_1, vars_C]; simp
        · rw [h, val_nil, mul_zero]; exact dvd_zero _
      have hout : LoopOut vc v F G (val r0) (val r1) (r0, s0, t0) ∧ (full → U v D (val r0) ∧ U v D (val s0) ∧ U v D (val t0)) := by
        refine ⟨hout, fun hfull => ?_⟩
        obtain ⟨w0, -, ⟨d0, d1, u0, u1, b0, b1⟩, e0, -, u2, -, b2, -⟩ := hf hfull
        exact ⟨⟨w0, by omega⟩, u0.mono (by omega), u2.mono (by omega)⟩
      cases n with
      | zero => unfold loop; rw [if_neg (by simpa using h)]; exact Tot.ok hout
      | succ n => unfold loop; rw [if_neg (by simpa using h)]; exact Tot.ok hout
    · cases n with
      | zero => exact absurd (hn h) (by omega)
      | succ n =>
        have hv1 : val r1 ≠ 0 := fun hz => h ((k1.val_eq_zero M).1 hz)
        have hdeg : full → (val r0).degreeOf v ≤ D ∧ (val r1).degreeOf v ≤ D := fun hfull => by
          obtain ⟨-, -, ⟨d0, d1, -, -, b0, b1⟩, -⟩ := hf hfull
          omega
        have hn := hn h
        unfold loop
        rw [if_pos h]
        refine (divE_spec ho (v := v) k0 k1 h fun hfull => ?_).bind fun d hd => ?_
        · obtain ⟨w0, w1, -, -⟩ := hf hfull
          have := hdeg hfull
          have := hD hfull
          exact ⟨D, D, ⟨w0, by omega⟩, ⟨w1, by omega⟩, by omega⟩
        obtain ⟨hQ, hS, hp⟩ := hd
        obtain ⟨-, hl1, hl2⟩ := leadIn_spec M k1 v
        have hlU : full → U v 0 (val (leadIn vc (lexGt vc) r1 v).1) := fun hfull => ⟨hl2.vars_subset.trans (hf hfull).2.1, by rw [hl2.degreeOf]⟩
        dsimp only
        refine (lcPow_spec ho hl1 hlU _ (mkC_ok 1).1 fun _ => by rw [(mkC_ok (vc := vc) 1).2]; exact U.C 1).bind fun lp hlp => ?_
        rw [(mkC_ok (vc := vc) 1).2, C_1, one_mul, degreeLex_spec ho k0, degreeLex_spec ho k1] at hlp
        have hke : (((val r0).degreeOf v : ℤ) - ((val r1).degreeOf v : ℤ) + 1).toNat = (val r0).degreeOf v + 1 - (val r1).degreeOf v := by omega
        rw [hke] at hlp
        have hlpU : full → U v 0 (val lp) := fun hfull => by rw [hlp.2]; exact (hlU hfull).pow _
        have hqU : full → ∃ e, U v e (val d.1) ∧ e ≤ D := fun hfull => by
          obtain ⟨w0, w1, -, -⟩ := hf hfull
          refine ⟨(val d.1).degreeOf v, ⟨(pseudo_vars hp hv1).2.trans (Finset.union_subset w0 w1), le_rfl⟩, ?_⟩
          have := hdeg hfull
          by_cases hq : val d.1 = 0
          · rw [hq, degreeOf_zero]; omega
          · have := pseudo_quo hp hv1 hq
            omega
        have hcomb : ∀ {a b : PV Mono ℤ}, LP vc a → LP vc b → (full → Bd v D (val r0) (val r1) (val a) (val b)) → Tot full (comb true vc lp a d.1 b) fun r => LP vc r ∧ val r = val lp * val a - val d.1 * val b := by
          intro a b ka kb hb
          refine comb_spec ho hlp.1 ka hQ kb fun hfull => ?_
          obtain ⟨d0, d1, u0, u1, b0, b1⟩ := hb hfull
          obtain ⟨e, he, heD⟩ := hqU hfull
          have := hD hfull
          exact ⟨v, d0, hlpU hfull, u0, by omega, e, d1, he, u1, by omega⟩
        refine (hcomb ks0 ks1 fun hfull => (hf hfull).2.2.1).bind fun s2 hs2 => (hcomb kt0 kt1 fun hfull => (hf hfull).2.2.2).bind fun t2 ht2 => ?_
        have hp' := hp
        obtain ⟨⟨L, e, hL, -, he, heq⟩, hrem⟩ := hp
        have he := he rfl
        have hLe : L = val (leadIn vc (lexGt vc) r1 v).1 := hL.unique hl2
        rw [← hLe, ← he] at hlp
        refine (loop_spec hD n (F := F) (G := G) (v := v) k1 hS ks1 hs2.1 kt1 ht2.1 h ?_ e1 ?_ ?_).mono fun r hr => ?_
        · intro hr
          have : val d.2 ≠ 0 := fun hz => hr ((hS.val_eq_zero M).1 hz)
          have := hrem.resolve_left this
          omega
        · rw [hs2.2, ht2.2, hlp.2]
          have : val d.2 = L ^ e * val r0 - val d.1 * val r1 := by rw [heq]; ring
          rw [this, ← e0, ← e1]
          ring
        · intro hfull
          obtain ⟨w0, w1, b0, b1⟩ := hf hfull
          refine ⟨w1, (pseudo_vars hp' hv1).1.trans (Finset.union_subset w0 w1), b0.next hp' hv1 w1 w0 (hlpU hfull) hs2.2, b1.next hp' hv1 w1 w0 (hlpU hfull) ht2.2⟩
        · obtain ⟨⟨p1, p2, p3, p4, p5, a, a1, a2, a3, a4, a5⟩, hub⟩ := hr
          refine ⟨⟨p1, p2, p3, p4, p5, a * L ^ e, mul_ne_zero a1 (pow_ne_zero _ (hL.lead_ne hv1)), ?_, ?_, ?_, ?_⟩, hub⟩
          · intro hm
            rcases Finset.mem_union.1 (vars_mul _ _ hm) with h5 | h5
            · exact a2 h5
            · exact hL.not_vars (vars_pow _ _ h5)
          · refine (vars_mul _ _).trans (Finset.union_subset (a3.trans (Finset.union_subset Finset.subset_union_right (pseudo_vars hp' hv1).1)) ?_)
            exact (vars_pow _ _).trans (hL.vars_subset.trans Finset.subset_union_right)
          · have : a * L ^ e * val r0 = val d.1 * (a * val r1) + a * val d.2 := by rw [mul_assoc, heq]; ring
            rw [this]
            exact dvd_add (a4.mul_left _) a5
          · have : a * L ^ e * val r1 = L ^ e * (a * val r1) := by ring
            rw [this]
            exact a4.mul_left _

end

/-! ## numbers -/

theorem intLoop_spec {f g : ℤ} : ∀ (n : ℕ) {r0 r1 s0 s1 t0 t1 : ℤ}, r1.natAbs ≤ n → s0 * f + t0 * g = r0 → s1 * f + t1 * g = r1 →
    ∃ r s t, intLoop n r0 r1 s0 s1 t0 t1 = some (r, s, t) ∧ s * f + t * g = r ∧ r.natAbs = Int.gcd r0 r1
  | n, r0, r1, s0, s1, t0, t1, hn, e0, e1 => by
    by_cases h : r1 = 0
    · refine ⟨r0, s0, t0, ?_, e0, by rw [h, Int.gcd_zero_right]⟩
      cases n with
      | zero => unfold intLoop; rw [if_neg (by simpa using h)]
      | succ n => unfold intLoop; rw [if_neg (by simpa using h)]
    · cases n with
      | zero => exact absurd hn (by omega)
      | succ n =>
        unfold intLoop
        rw [if_pos h]
        dsimp only
        have hm : r0 - r0.tdiv r1 * r1 = r0.tmod r1 := by have := Int.tmod_add_tdiv_mul r0 r1; linarith
        rw [hm]
        obtain ⟨r, s, t, h1, h2, h3⟩ := intLoop_spec n (f := f) (g := g) (r0 := r1) (r1 := r0.tmod r1) (s0 := s1) (s1 := s0 - r0.tdiv r1 * s1) (t0 := t1) (t1 := t0 - r0.tdiv r1 * t1)
          (by have := Int.natAbs_tmod r0 r1
              have := Nat.mod_lt r0.natAbs (Int.natAbs_pos.2 h)
              omega)
          e1 (by rw [← hm, ← e0, ← e1]; ring)
        refine ⟨r, s, t, h1, h2, ?_⟩
        rw [h3, ← hm, Int.gcd_comm r0 r1, ← Int.gcd_sub_mul_right_right (m := r1) (n := r0) (k := r0.tdiv r1)]

theorem intCase_spec {f g : ℤ} (hf : f ≠ 0) (hg : g ≠ 0) : ∃ s t : ℤ, intCase f g = some ((Int.gcd f g : ℤ), s, t) ∧ s * f + t * g = Int.gcd f g := by
  unfold intCase
  dsimp only
  by_cases h1 : ((Int.gcd f g : ℕ) : ℤ) = |f|
  · rw [if_pos h1]
    refine ⟨_, _, rfl, ?_⟩
    rw [h1]
    by_cases hp : f > 0
    · rw [if_pos hp, abs_of_pos hp]; ring
    · rw [if_neg hp, abs_of_nonpos (by omega)]; ring
  rw [if_neg h1]
  by_cases h2 : ((Int.gcd f g : ℕ) : ℤ) = |g|
  · rw [if_pos h2]
    refine ⟨_, _, rfl, ?_⟩
    rw [h2]
    by_cases hp : g > 0
    · rw [if_pos hp, abs_of_pos hp]; ring
    · rw [if_neg hp, abs_of_nonpos (by omega)]; ring
  rw [if_neg h2]
  obtain ⟨r, s, t, k1, k2, k3⟩ := intLoop_spec (f := f) (g := g) g.natAbs (r0 := f) (r1 := g) (s0 := 1) (s1 := 0) (t0 := 0) (t1 := 1) le_rfl (by ring) (by ring)
  rw [k1, Option.map_some]
  by_cases hr : r < 0
  · rw [if_pos hr]
    refine ⟨-s, -t, ?_, ?_⟩
    · rw [show ((Int.gcd f g : ℕ) : ℤ) = -r by omega]
    · rw [show ((Int.gcd f g : ℕ) : ℤ) = -r by omega, ← k2]; ring
  · rw [if_neg hr]
    refine ⟨s, t, ?_, ?_⟩
    · rw [show ((Int.gcd f g : ℕ) : ℤ) = r by omega]
    · rw [show ((Int.gcd f g : ℕ) : ℤ) = r by omega, ← k2]

/-! ## the function -/

/-- the first coefficient is positive -/
def HeadPos (p : PV Mono ℤ) : Prop := ∃ t l, p = t :: l ∧ 0 < t.2

section
variable {vc : Var → Var → Bool} {full : Prop} (ho : VarOrd vc)

include ho in
theorem fixSign_spec {v : Var} {F G r0 r1 : MvPolynomial Var ℤ} {r : PV Mono ℤ × PV Mono ℤ × PV Mono ℤ} {D : ℕ} (hr : LoopOut vc v F G r0 r1 r) (hu : full → D < 2 ^ 62 ∧ U v D (val r.1) ∧ U v D (val r.2.1) ∧ U v D (val r.2.2)) :
    Tot full (fixSign true vc r) fun q => LoopOut vc v F G r0 r1 q ∧ HeadPos q.1 := by
  have M := lex_ord ho
  obtain ⟨a, s, t⟩ := r
  obtain ⟨p1, p2, p3, p4, p5, b, b1, b2, b3, b4, b5⟩ := hr
  dsimp only at p1 p2 p3 p4 p5 b4 b5
  unfold fixSign
  cases a with
  | nil => exact absurd rfl p4
  | cons x l =>
    dsimp only
    have hx : x.2 ≠ 0 := p1.canon.2 x (by simp)
    by_cases h : x.2 < 0
    · rw [if_pos h]
      have hm := mkC_ok (vc := vc) (-1)
      have hmU : U v 0 (val (mkC (-1))) := by rw [hm.2]; exact U.C _
      refine (mulE_spec ho p1 hm.1 fun hf => ⟨v, D, 0, (hu hf).2.1, hmU, by have := (hu hf).1; omega⟩).bind fun a' ha => (mulE_spec ho p2 hm.1 fun hf => ⟨v, D, 0, (hu hf).2.2.1, hmU, by have := (hu hf).1; omega⟩).bind fun s' hs => (mulE_spec ho p3 hm.1 fun hf => ⟨v, D, 0, (hu hf).2.2.2, hmU, by have := (hu hf).1; omega⟩).bind fun t' ht => Tot.ok ?_
      rw [nrm_id ho ha.1, nrm_id ho hs.1, nrm_id ho ht.1]
      have ea : val a' = -val (x :: l) := by rw [ha.2, hm.2, C_neg, C_1]; ring
      have e2 : a' = pvNeg (x :: l) := by
        refine PolyOK.ext M ha.1 p1.neg ?_
        rw [ea, val_pvNeg]
      refine ⟨⟨ha.1, hs.1, ht.1, by rw [e2]; simp [pvNeg], ?_, b, b1, b2, b3, ?_, ?_⟩, (x.1, -x.2), _, e2, by show 0 < -x.2; omega⟩
      · show val s' * F + val t' * G = val a'
        rw [ea, ← p5, hs.2, ht.2, hm.2, C_neg, C_1]; ring
      · show val a' ∣ _
        rw [ea, neg_dvd]; exact b4
      · show val a' ∣ _
        rw [ea, neg_dvd]; exact b5
    · rw [if_neg h]
      exact Tot.ok ⟨⟨p1, p2, p3, p4, p5, b, b1, b2, b3, b4, b5⟩, x, l, rfl, by omega⟩

/-- what `polynomial_GCD(F, G, s, t)` returns when both operands are nonzero -/
def ExtOut (vc : Var → Var → Bool) (f g : MvPolynomial Var ℤ) (r : PV Mono ℤ × PV Mono ℤ × PV Mono ℤ) : Prop :=
  LP vc r.1 ∧ LP vc r.2.1 ∧ LP vc r.2.2 ∧ HeadPos r.1 ∧ val r.2.1 * f + val r.2.2 * g = val r.1 ∧
    (∀ a b : ℤ, f = C a → g = C b → val r.1 = C (Int.gcd a b : ℤ)) ∧
    ∃ a : MvPolynomial Var ℤ, a ≠ 0 ∧ a.vars ⊆ f.vars ∪ g.vars ∧ (∀ v, IsMain vc f v → (∀ w, IsMain vc g w → w = v ∨ vc w v = true) → v ∉ a.vars) ∧
      (∀ v, IsMain vc g v → (∀ w, IsMain vc f w → w = v ∨ vc w v = true) → v ∉ a.vars) ∧ val r.1 ∣ a * f ∧ val r.1 ∣ a * g

include ho in
theorem mainVar_spec {F G : PV Mono ℤ} (hF : LP vc F) (hG : LP vc G) (h0 : 0 ∉ (val F).vars) (h0' : 0 ∉ (val G).vars) (hn : ¬ (isNumber F = true ∧ isNumber G = true)) :
    mainVar vc F G ≠ 0 ∧ (∀ v, IsMain vc (val F) v → (∀ w, IsMain vc (val G) w → w = v ∨ vc w v = true) → v = mainVar vc F G) ∧
      (∀ v, IsMain vc (val G) v → (∀ w, IsMain vc (val F) w → w = v ∨ vc w v = true) → v = mainVar vc F G) := by
  have key : ∀ {P : PV Mono ℤ}, LP vc P → 0 ∉ (val P).vars → isNumber P = false → IsMain vc (val P) (pFirstVar P) ∧ pFirstVar P ≠ 0 := by
    intro P hP h hn
    have := (main_spec ho hP hn).1
    exact ⟨this, fun e => h (e ▸ this.1)⟩
  have kn : ∀ {P : PV Mono ℤ}, LP vc P → isNumber P = true → (val P).vars = ∅ := by
    intro P hP hn
    obtain ⟨c, hc⟩ := (isNumber_iff (lex_ord ho) hP).1 hn
    rw [hc, vars_C]
  have kz : ∀ {P : PV Mono ℤ}, LP vc P → 0 ∉ (val P).vars → isNumber P = true → pFirstVar P = 0 := fun hP h hn => (first_zero ho hP h).2 (kn hP hn)
  have km : ∀ {P : PV Mono ℤ}, LP vc P → isNumber P = true → ∀ v, ¬ IsMain vc (val P) v := fun hP hn v hv => hv.ne (kn hP hn)
  unfold mainVar
  dsimp only
  by_cases hf : isNumber F = true
  · have hg : isNumber G = false := by cases hh : isNumber G with | true => exact absurd ⟨hf, hh⟩ hn | false => rfl
    obtain ⟨g1, g2⟩ := key hG h0' hg
    rw [if_pos (.inl (kz hF h0 hf))]
    exact ⟨g2, fun v hv => absurd hv (km hF hf v), fun v hv _ => hv.unique ho g1⟩
  · rw [Bool.not_eq_true] at hf
    obtain ⟨f1, f2⟩ := key hF h0 hf
    by_cases hg : isNumber G = true
    · have := kz hG h0' hg
      rw [if_neg (by rw [this]; simp [f2])]
      exact ⟨f2, fun v hv _ => hv.unique ho f1, fun v hv => absurd hv (km hG hg v)⟩
    · rw [Bool.not_eq_true] at hg
      obtain ⟨g1, g2⟩ := key hG h0' hg
      by_cases hc : vc (pFirstVar F) (pFirstVar G) = true
      · rw [if_pos (.inr ⟨g2, hc⟩)]
        refine ⟨g2, fun v hv hw => ?_, fun v hv _ => hv.unique ho g1⟩
        rcases hw _ g1 with h | h
        · exact h.symm
        · rw [hv.unique ho f1] at h
          exact absurd (ho.trans _ _ _ trivial trivial trivial hc h) (by simpa using ho.irrefl _ trivial)
      · rw [if_neg (by simp [f2, hc])]
        refine ⟨f2, fun v hv _ => hv.unique ho f1, fun v hv hw => ?_⟩
        rcases hw _ f1 with h | h
        · exact h.symm
        · rw [hv.unique ho g1] at h
          exact absurd h hc

include ho in
theorem gcdExt_spec {F G : PV Mono ℤ} (hF : LP vc F) (hG : LP vc G) (hf : F ≠ []) (hg : G ≠ []) (h0 : 0 ∉ (val F).vars) (h0' : 0 ∉ (val G).vars) :
    Tot (∃ v, U v (2 ^ 62 - 1) (val F) ∧ U v (2 ^ 62 - 1) (val G)) (gcdExt true vc F G) (ExtOut vc (val F) (val G)) := by
  have M := lex_ord ho
  cases F with
  | nil => exact absurd rfl hf
  | cons f F' =>
  cases G with
  | nil => exact absurd rfl hg
  | cons g G' =>
  unfold gcdExt
  dsimp only
  have hfne : val (f :: F') ≠ 0 := fun hz => hf ((hF.val_eq_zero M).1 hz)
  have hgne : val (g :: G') ≠ 0 := fun hz => hg ((hG.val_eq_zero M).1 hz)
  by_cases hn : isNumber (f :: F') = true ∧ isNumber (g :: G') = true
  · rw [if_pos hn]
    have key : ∀ {t : Mono × ℤ} {l : PV Mono ℤ}, LP vc (t :: l) → isNumber (t :: l) = true → val (t :: l) = C t.2 ∧ t.2 ≠ 0 := by
      intro t l hp h
      refine ⟨?_, hp.canon.2 t (by simp)⟩
      cases l with
      | nil =>
        have : t.1.data = [] := by simpa [isNumber] using h
        rw [val_cons, val_nil, add_zero, show expo t.1 = 0 from ?_]
        · rfl
        · ext v
          have := expo_eq (hp.monos t (by simp)).pos v
          rw [‹t.1.data = []›, E_nil] at this
          simpa using this
      | cons _ _ => simp [isNumber] at h
    obtain ⟨f1, f2⟩ := key hF hn.1
    obtain ⟨g1, g2⟩ := key hG hn.2
    obtain ⟨s, t, k1, k2⟩ := intCase_spec f2 g2
    rw [k1, Option.map_some]
    refine ⟨_, rfl, fun _ => by simp, fun r hr => ?_⟩
    cases hr
    have hp : (0 : ℤ) < Int.gcd f.2 g.2 := by exact_mod_cast Int.gcd_pos_of_ne_zero_left _ f2
    refine ⟨(mkC_ok _).1, (mkC_ok _).1, (mkC_ok _).1, ⟨(Mono.one, (Int.gcd f.2 g.2 : ℤ)), [], by unfold mkC; rw [if_pos hp.ne'], hp⟩, ?_, ?_, 1, one_ne_zero, ?_, ?_, ?_, ?_, ?_⟩
    · rw [(mkC_ok (vc := vc) _).2, (mkC_ok (vc := vc) _).2, (mkC_ok (vc := vc) _).2, f1, g1, ← C_mul, ← C_mul, ← C_add, k2]
    · intro a b ea eb
      rw [(mkC_ok (vc := vc) _).2]
      rw [f1, C_inj] at ea
      rw [g1, C_inj] at eb
      rw [ea, eb]
    · rw [← C_1, vars_C]; simp
    · intro v _ _; rw [← C_1, vars_C]; simp
    · intro v _ _; rw [← C_1, vars_C]; simp
    · rw [(mkC_ok (vc := vc) _).2, f1, one_mul]
      exact map_dvd C (Int.gcd_dvd_left _ _)
    · rw [(mkC_ok (vc := vc) _).2, g1, one_mul]
      exact map_dvd C (Int.gcd_dvd_right _ _)
  · rw [if_neg hn]
    obtain ⟨m1, m2, m3⟩ := mainVar_spec ho hF hG h0 h0' hn
    obtain ⟨v, ev⟩ : ∃ v, v = mainVar vc (f :: F') (g :: G') := ⟨_, rfl⟩
    rw [← ev] at m1 m2 m3 ⊢
    rw [if_neg m1]
    have hfull : (∃ v, U v (2 ^ 62 - 1) (val (f :: F')) ∧ U v (2 ^ 62 - 1) (val (g :: G'))) → U v (2 ^ 62 - 1) (val (f :: F')) ∧ U v (2 ^ 62 - 1) (val (g :: G')) := by
      rintro ⟨u, u1, u2⟩
      by_cases hF' : isNumber (f :: F') = true
      · have hG' : isNumber (g :: G') = false := by cases hh : isNumber (g :: G') with | true => exact absurd ⟨hF', hh⟩ hn | false => rfl
        have k := (main_spec ho hG hG').1
        have : pFirstVar (g :: G') = v := m3 _ k fun w hw => by
          obtain ⟨c, hc⟩ := (isNumber_iff M hF).1 hF'
          rw [hc] at hw
          exact absurd hw.1 (by rw [vars_C]; simp)
        have e := u2.1 k.1
        rw [Finset.mem_singleton, this] at e
        subst e
        exact ⟨u1, u2⟩
      · rw [Bool.not_eq_true] at hF'
        have k := (main_spec ho hF hF').1
        have e := u1.1 k.1
        rw [Finset.mem_singleton] at e
        have : pFirstVar (f :: F') = v := m2 _ k fun w hw => by
          have e' := u2.1 hw.1
          rw [Finset.mem_singleton] at e'
          exact .inl (e'.trans e.symm)
        rw [this] at e
        subst e
        exact ⟨u1, u2⟩
    have c0 := mkC_ok (vc := vc) 0
    have c1 := mkC_ok (vc := vc) 1
    refine (loop_spec ho (v := v) (F := val (f :: F')) (G := val (g :: G')) (D := 2 ^ 62 - 1) (fun _ => by norm_num) _ hF hG c1.1 c0.1 c0.1 c1.1 hf ?_ ?_ ?_ ?_).bind fun r hr => (fixSign_spec ho hr.1 fun h => ⟨by norm_num, hr.2 h⟩).mono fun q hq => ?_
    · intro _
      rw [degreeLex_spec ho hG]
      omega
    · rw [c0.2, c1.2, C_1, C_0]; ring
    · rw [c0.2, c1.2, C_1, C_0]; ring
    · intro h
      obtain ⟨u1, u2⟩ := hfull h
      rw [c0.2, c1.2]
      exact ⟨u1.1, u2.1, ⟨0, 0, U.C _, U.C _, by have := u2.2; omega, by have := u1.2; omega⟩, ⟨0, 0, U.C _, U.C _, by have := u2.2; omega, by have := u1.2; omega⟩⟩
    · obtain ⟨⟨p1, p2, p3, p4, p5, a, a1, a2, a3, a4, a5⟩, hh⟩ := hq
      refine ⟨p1, p2, p3, hh, p5, fun x y ex ey => ?_, a, a1, a3, fun w hw hw' => m2 w hw hw' ▸ a2, fun w hw hw' => m3 w hw hw' ▸ a2, a4, a5⟩
      exact absurd ⟨(isNumber_iff M hF).2 ⟨x, ex⟩, (isNumber_iff M hG).2 ⟨y, ey⟩⟩ hn

end

end GcdExt
end CLPoly
