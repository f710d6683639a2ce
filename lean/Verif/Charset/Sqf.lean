import Verif.Charset.Loop
import Verif.Gcd.SqfStrict
import Verif.Gcd.ZSpec
import Verif.Gcd.Strict
import Verif.Gcd.SqfSpec
import Mathlib.Algebra.Squarefree.Basic
import Mathlib.RingTheory.Polynomial.UniqueFactorization

/-! # `sqrfree` -/

namespace CLPoly
namespace Charset
open Mono MvPolynomial Mgcd Run

variable {vc : Var → Var → Bool}

/-- the squarefree part of `F` without integer content: the product of the irreducible factors that are not constants, each once (determined up to the sign, `IsSqf.unique`) -/
structure IsSqf (F s : MvPolynomial Var ℤ) : Prop where
  dvd : s ∣ F
  back : ∃ z : ℤ, z ≠ 0 ∧ ∃ k, F ∣ C z * s ^ k
  sqf : Squarefree s
  prim : ∀ z : ℤ, (C z : MvPolynomial Var ℤ) ∣ s → IsUnit z

theorem prim_of_prime {s : MvPolynomial Var ℤ} (h0 : s ≠ 0) (h : ∀ q : ℤ, Prime q → ¬ (C q : MvPolynomial Var ℤ) ∣ s) {z : ℤ} (hz : (C z : MvPolynomial Var ℤ) ∣ s) : IsUnit z := by
  by_contra hu
  by_cases z0 : z = 0
  · rw [z0, C_0, zero_dvd_iff] at hz; exact h0 hz
  obtain ⟨q, hq, hd⟩ := WfDvdMonoid.exists_irreducible_factor hu z0
  exact h q hq.prime ((map_dvd C hd).trans hz)

theorem prod_facts {t : List (PV Mono ℤ × ℕ)} (sq : ∀ x ∈ t, Squarefree (val x.1)) (co : t.Pairwise fun a b => IsRelPrime (val a.1) (val b.1)) :
    Squarefree (t.map fun x => val x.1).prod := by
  induction t with
  | nil => simp
  | cons a t ih =>
    obtain ⟨c1, c2⟩ := List.pairwise_cons.1 co
    rw [List.map_cons, List.prod_cons, squarefree_mul_iff]
    refine ⟨?_, sq a (by simp), ih (fun x hx => sq x (List.mem_cons_of_mem _ hx)) c2⟩
    have : ∀ u : List (PV Mono ℤ × ℕ), (∀ x ∈ u, IsRelPrime (val a.1) (val x.1)) → IsRelPrime (val a.1) (u.map fun x => val x.1).prod := by
      intro u hu
      induction u with
      | nil => simpa using isRelPrime_one_right
      | cons b u ih' =>
        rw [List.map_cons, List.prod_cons]
        exact IsRelPrime.mul_right (hu b (by simp)) (ih' fun x hx => hu x (List.mem_cons_of_mem _ hx))
    exact this t c1

theorem prodPow_dvd {t : List (PV Mono ℤ × ℕ)} {K : ℕ} (h : ∀ x ∈ t, x.2 ≤ K) : prodPow t ∣ (t.map fun x => val x.1).prod ^ K := by
  induction t with
  | nil => simp [prodPow]
  | cons a t ih =>
    have e : prodPow (a :: t) = val a.1 ^ a.2 * prodPow t := by simp [prodPow]
    rw [e, List.map_cons, List.prod_cons, mul_pow]
    exact mul_dvd_mul (pow_dvd_pow _ (h a (by simp))) (ih fun x hx => h x (List.mem_cons_of_mem _ hx))

theorem prod_dvd_prodPow {t : List (PV Mono ℤ × ℕ)} (h : ∀ x ∈ t, 0 < x.2) : (t.map fun x => val x.1).prod ∣ prodPow t := by
  induction t with
  | nil => simp [prodPow]
  | cons a t ih =>
    have e : prodPow (a :: t) = val a.1 ^ a.2 * prodPow t := by simp [prodPow]
    rw [e, List.map_cons, List.prod_cons]
    exact mul_dvd_mul (dvd_pow_self _ (h a (by simp)).ne') (ih fun x hx => h x (List.mem_cons_of_mem _ hx))

theorem isSqf_of {V : Finset Var} {N : ℕ} {F : MvPolynomial Var ℤ} (hF : F ≠ 0) {c : PV Mono ℤ} {t : List (PV Mono ℤ × ℕ)} (h : SqfOut vc V N F c t) :
    IsSqf F (t.map fun x => val x.1).prod := by
  obtain ⟨z, hz⟩ : ∃ z : ℤ, val c = C z := ⟨_, vars_eq_empty_iff_eq_C.1 h.const⟩
  have z0 : z ≠ 0 := by
    rintro rfl
    apply hF; rw [h.prod, hz, C_0, zero_mul]
  have hs := prod_facts (fun x hx => (h.parts x hx).2.2.1) h.coprime
  refine ⟨?_, ⟨z, z0, (t.map Prod.snd).sum, ?_⟩, hs, fun z hz => prim_of_prime hs.ne_zero (fun q hq hd => ?_) hz⟩
  · rw [h.prod]
    exact (prod_dvd_prodPow fun x hx => (h.parts x hx).2.1).mul_left _
  · rw [h.prod, hz]
    exact mul_dvd_mul_left _ (prodPow_dvd fun x hx => List.single_le_sum (by simp) _ (List.mem_map.2 ⟨x, hx, rfl⟩))
  · have hp : Prime (C q : MvPolynomial Var ℤ) := (prime_C_iff Var).2 hq
    obtain ⟨y, hy, hd⟩ := hp.dvd_prod_iff.1 hd
    obtain ⟨x, hx, rfl⟩ := List.mem_map.1 hy
    have := (h.parts x hx).2.2.2 (C q) vars_C hd
    exact hp.not_unit this

theorem IsSqf.ne {F s : MvPolynomial Var ℤ} (h : IsSqf F s) : s ≠ 0 := h.sqf.ne_zero

theorem IsSqf.dvd_of {F s s' : MvPolynomial Var ℤ} (h : IsSqf F s) (h' : IsSqf F s') : s ∣ s' := by
  obtain ⟨z, z0, k, hk⟩ := h'.back
  have h1 : s ∣ C z * s' ^ k := h.dvd.trans hk
  have h2 : IsRelPrime s (C z) := by
    intro d hd1 hd2
    have hv : d.vars = ∅ := by
      have := vars_of_dvd hd2 (by simpa using z0)
      rw [vars_C] at this
      exact Finset.subset_empty.1 this
    rw [vars_eq_empty_iff_eq_C] at hv
    rw [hv] at hd1 ⊢
    exact (h.prim _ hd1).map C
  have h3 := h2.dvd_of_dvd_mul_left h1
  by_cases hk0 : k = 0
  · rw [hk0, pow_zero] at h3; exact h3.trans (one_dvd _)
  · exact (h.sqf.dvd_pow_iff_dvd hk0).1 h3

theorem IsSqf.unique {F s s' : MvPolynomial Var ℤ} (h : IsSqf F s) (h' : IsSqf F s') : s' = s ∨ s' = - s := by
  obtain ⟨u, hu⟩ := associated_of_dvd_dvd (h.dvd_of h') (h'.dvd_of h)
  rcases unit_pm u.isUnit with e | e
  · left; rw [← hu, e, mul_one]
  · right; rw [← hu, e]; ring

theorem IsSqf.vars {F s : MvPolynomial Var ℤ} (hF : F ≠ 0) (h : IsSqf F s) : s.vars = F.vars := by
  refine Finset.Subset.antisymm (vars_of_dvd h.dvd hF) ?_
  obtain ⟨z, z0, k, hk⟩ := h.back
  have zc : (C z : MvPolynomial Var ℤ) ≠ 0 := by simpa using z0
  refine (vars_of_dvd hk (mul_ne_zero zc (pow_ne_zero _ h.ne))).trans ?_
  refine (vars_mul _ _).trans ?_
  rw [vars_C, Finset.empty_union]
  exact vars_pow _ _

/-! ## the model -/

theorem gcdFits_ok (ho : VarOrd vc) {F : PV Mono ℤ} (hF : LP vc F) (h : gcdFits vc F = true) : ∃ V N, Small V N ∧ In vc V N F := by
  classical
  have hs := pvVars_sorted ho F hF.monos [] List.Pairwise.nil
  have hm : ∀ w, w ∈ pvVars vc F [] ↔ w ∈ (val F).vars := fun w => by
    rw [mem_pvVars ho, polyVars_eq (lex_ord ho) hF]; simp
  have hl : (pvVars vc F []).length = (val F).vars.card := by
    have hnd : (pvVars vc F []).Nodup := hs.imp fun {a b} hab e => by
      rw [e, ho.irrefl b trivial] at hab; exact absurd hab (by simp)
    rw [← List.toFinset_card_of_nodup hnd]
    congr 1
    ext w; rw [List.mem_toFinset, hm]
  unfold gcdFits at h
  dsimp only at h
  rw [hl, List.all_eq_true] at h
  have hb : ∀ w ∈ (val F).vars, w ≠ 0 ∧ ((val F).degreeOf w : ℤ) < capLex (val F).vars.card ∧ ((val F).degreeOf w : ℤ) < 2 ^ 63 - 1 := fun w hw => by
    have := h w ((hm w).2 hw)
    simp only [Bool.and_eq_true, decide_eq_true_iff, degreeLex_spec ho hF] at this
    exact ⟨this.1.1, this.1.2, this.2⟩
  refine ⟨(val F).vars, (val F).vars.sup fun w => (val F).degreeOf w, ⟨fun h0 => (hb 0 h0).1 rfl, ?_, ?_⟩, hF, subset_rfl, fun w => ?_⟩
  · have : ((val F).vars.sup fun w => (val F).degreeOf w) < (capLex (val F).vars.card).toNat := by
      rw [Finset.sup_lt_iff (by have := capLex_pos (val F).vars.card; simp; omega)]
      intro w hw
      have := (hb w hw).2.1
      omega
    have := capLex_pos (val F).vars.card
    omega
  · rw [Finset.sup_lt_iff (by norm_num)]
    intro w hw
    have := (hb w hw).2.2
    omega
  · by_cases hw : w ∈ (val F).vars
    · exact Finset.le_sup (f := fun w => (val F).degreeOf w) hw
    · rw [degreeOf_zero_iff.2 hw]; exact Nat.zero_le _

theorem prodFactors_spec (ho : VarOrd vc) {V : Finset Var} {N : ℕ} (hS : Small V N) {F : MvPolynomial Var ℤ} (hF : F ≠ 0) (hV : F.vars ⊆ V) (hN : ∀ w, F.degreeOf w ≤ N) :
    ∀ (l : List (PV Mono ℤ × ℕ)) (G : PV Mono ℤ), LP vc G → (∀ x ∈ l, LP vc x.1) → val G * (l.map fun x => val x.1).prod ∣ F →
      Post (prodFactors vc l G) fun r => LP vc r ∧ val r = val G * (l.map fun x => val x.1).prod := by
  intro l
  induction l with
  | nil => intro G hG _ _; exact Post.ret ⟨hG, by simp⟩
  | cons x l ih =>
    intro G hG hl hd
    rw [List.map_cons, List.prod_cons, ← mul_assoc] at hd
    have hd1 : val G * val x.1 ∣ F := (dvd_mul_right _ _).trans hd
    have n0 : val G * val x.1 ≠ 0 := fun e => hF (zero_dvd_iff.1 (e ▸ hd1))
    have hx := hl x (by simp)
    have v1 := (vars_of_dvd ((dvd_mul_right _ _).trans hd1) hF).trans hV
    have v2 := (vars_of_dvd ((dvd_mul_left _ _).trans hd1) hF).trans hV
    obtain ⟨r, e, r1, r2⟩ := polyMul_in ho hS hG hx (left_ne_zero_of_mul n0) (right_ne_zero_of_mul n0) v1 v2
      (fun w => (degreeOf_le_of_dvd hd1 hF).trans (hN w))
    unfold prodFactors
    refine (Post.lift (Q := fun r' => r' = r) fun a ha => by rw [e] at ha; exact (Option.some.inj ha).symm).bind fun r' hr' => ?_
    subst hr'
    refine (ih r' r1 (fun y hy => hl y (List.mem_cons_of_mem _ hy)) (by rw [r2]; exact hd)).mono fun q hq => ⟨hq.1, ?_⟩
    rw [hq.2, r2, List.map_cons, List.prod_cons, mul_assoc]

theorem sqrfree_spec (ho : VarOrd vc) {prev : ℕ → Option ℕ} (hprev : Upoly.PrevOK prev) (fuel : ℕ) {F : PV Mono ℤ} (hF : LP vc F) (h0 : F ≠ []) :
    Post (sqrfree vc true prev fuel F) fun s => LP vc s ∧ IsSqf (val F) (val s) := by
  have M := lex_ord ho
  unfold sqrfree
  by_cases hf : gcdFits vc F = true
  · obtain ⟨V, N, hS, hIn⟩ := gcdFits_ok ho hF hf
    rw [hf]
    simp only [Bool.not_true, Bool.and_false, Bool.false_eq_true, if_false, if_neg h0]
    have F0 : val F ≠ 0 := fun e => h0 ((hF.val_eq_zero M).1 e)
    refine (squarefreeFactorize_spec ho hS (gcdZ_spec' ho hS hprev (strict := true) (fun h => by simp at h) fuel fuel) fuel fuel F hIn).bind fun l hl => ?_
    rcases hl with ⟨e, -⟩ | ⟨-, c, t, rfl, ho'⟩
    · exact absurd e h0
    · have hs := isSqf_of F0 ho'
      have one : LP vc ([(⟨[], 0⟩, 1)] : PV Mono ℤ) ∧ val ([(⟨[], 0⟩, 1)] : PV Mono ℤ) = 1 := by
        exact ⟨polyOK_one, val_oneP⟩
      refine (prodFactors_spec ho hS F0 hIn.vars hIn.deg t _ one.1 (fun x hx => (ho'.parts x hx).1.ok) (by rw [one.2, one_mul]; exact hs.dvd)).mono fun s hs' => ⟨hs'.1, ?_⟩
      rw [hs'.2, one.2, one_mul]; exact hs
  · simp only [hf, Bool.not_false, Bool.and_true, if_true]
    exact Post.fail

theorem sqrfree_code (chk : Bool) (prev : ℕ → Option ℕ) (fuel : ℕ) (F : PV Mono ℤ) : Run.Sub (sqrfree vc chk prev fuel F) (sqrfree vc false prev fuel F) := by
  unfold sqrfree
  by_cases h : (chk && !gcdFits vc F) = true
  · rw [if_pos h]; exact Run.Sub.fail _
  rw [if_neg h, if_neg (show ¬ (false && !gcdFits vc F) = true by simp)]
  refine Run.Sub.ite (Run.Sub.refl _) ?_
  exact Run.Sub.bind (squarefreeFactorize_sub (gcdZ_code chk prev fuel fuel) _ _ _) fun _ => Run.Sub.refl _

end Charset
end CLPoly
