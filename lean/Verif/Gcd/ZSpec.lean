import Verif.Gcd.ZLists
import Verif.Gcd.Growth
import Verif.Upoly.FirstPrime

/-! # The gcd of multivariate integer polynomials returns a greatest common divisor -/

namespace CLPoly
namespace Mgcd
open Mono MvPolynomial Run
open Dense (IsGcd)

variable {vc : Var → Var → Bool} {V : Finset Var} {N : ℕ} {strict : Bool}

theorem In.sub {U : Finset Var} {p : PV Mono ℤ} (h : In vc U N p) (hU : U ⊆ V) : In vc V N p := ⟨h.ok, h.vars.trans hU, h.deg⟩

/-- normal form and exponent bounds -/
theorem in_of_exp (ho : VarOrd vc) {q : PV Mono ℤ} (hq : LP vc q) (h : ∀ t ∈ q, ∀ w, E t.1.data w ≤ N ∧ (0 < E t.1.data w → w ∈ V)) : In vc V N q := by
  refine ⟨hq, fun w hw => ?_, fun w => degreeOf_le_of_list (lex_ord ho) hq fun t ht => (h t ht w).1⟩
  obtain ⟨t, ht, x, hx, rfl⟩ := (mem_vars_iff ho hq).1 hw
  exact (h t ht x.1).2 (pos_of_mem ho (hq.monos t ht) hx)

theorem isUnit_gcd_left {a : MvPolynomial Var ℤ} : IsGcd a 0 a := ⟨dvd_zero _, dvd_rfl, fun _ _ h => h⟩

/-- a polynomial without variables has content dividing everything it divides -/
theorem first_ne_zero (ho : VarOrd vc) {p : PV Mono ℤ} (hp : LP vc p) (h0 : 0 ∉ (val p).vars) (h : pFirstVar p ≠ 0) : isNumber p = false := by
  by_contra hc
  rw [Bool.not_eq_false, isNumber_iff (lex_ord ho) hp] at hc
  obtain ⟨c, hc⟩ := hc
  exact h ((first_zero ho hp h0).2 (by rw [hc, vars_C]))

/-- the variables of the operands of `equalize` -/
theorem equalize_spec (ho : VarOrd vc) (hS : Small V N) {gcd : PV Mono ℤ → PV Mono ℤ → Run (PV Mono ℤ)} (hg : GSpec vc V N gcd) : ∀ (fuel : ℕ) (F G : PV Mono ℤ),
    In vc V N F → In vc V N G → F ≠ [] → G ≠ [] → Post (equalize vc gcd fuel F G) fun e =>
      match e with
      | .inl r => In vc V N r ∧ IsGcd (val r) (val F) (val G)
      | .inr FG => In vc V N FG.1 ∧ In vc V N FG.2 ∧ FG.1 ≠ [] ∧ FG.2 ≠ [] ∧ pFirstVar FG.1 = pFirstVar FG.2 ∧ pFirstVar FG.1 ≠ 0 ∧
          (val FG.1 ∣ val F) ∧ (∀ d, IsGcd d (val FG.1) (val FG.2) → IsGcd d (val F) (val G)) := by
  have M := lex_ord ho
  intro fuel
  induction fuel with
  | zero => intro F G _ _ _ _; exact Post.fail
  | succ fuel ih =>
    intro F G hF hG F0 G0
    have F0' : val F ≠ 0 := fun h => F0 ((hF.ok.val_eq_zero M).1 h)
    have G0' : val G ≠ 0 := fun h => G0 ((hG.ok.val_eq_zero M).1 h)
    unfold equalize
    refine Post.ite (fun h => Post.ret ⟨hF, hG, F0, G0, h.1, h.2, dvd_rfl, fun d hd => hd⟩) fun h1 => ?_
    refine Post.ite (fun h => Post.ret ?_) fun h2 => ?_
    · have hv : (val F).vars = ∅ ∨ (val G).vars = ∅ := h.imp (first_zero ho hF.ok (hF.zero hS)).1 (first_zero ho hG.ok (hG.zero hS)).1
      obtain ⟨a, b⟩ := intGcd_spec ho hF.ok hG.ok F0 G0 hv
      exact ⟨hF.of_dvd F0' a b.1, b⟩
    have hne : pFirstVar F ≠ pFirstVar G := fun h => h1 ⟨h, fun h' => h2 (.inl h')⟩
    push Not at h2
    refine Post.ite (fun h => ?_) fun h => ?_
    · refine (contWith_spec ho hS hg hF).bind fun c hc => ?_
      have c0 : val c ≠ 0 := hc.2.ne_zero F0'
      have hfree : pFirstVar F ∉ (val G).vars := fun hm => by
        rcases (top_iff ho hG.ok).1 (first_spec ho hG.ok h2.2).1 _ hm with e | e
        · exact hne e
        · have := ho.trans _ _ _ trivial trivial trivial h e; rw [ho.irrefl _ trivial] at this; exact absurd this (by simp)
      refine (ih c G hc.1 hG (fun e => c0 (by rw [e, val_nil])) G0).mono fun e he => ?_
      match e, he with
      | .inl r, he => exact ⟨he.1, isGcd_cont G0' hfree hc.2 he.2⟩
      | .inr FG, he => exact ⟨he.1, he.2.1, he.2.2.1, he.2.2.2.1, he.2.2.2.2.1, he.2.2.2.2.2.1, he.2.2.2.2.2.2.1.trans hc.2.dvd,
          fun d hd => isGcd_cont G0' hfree hc.2 (he.2.2.2.2.2.2.2 d hd)⟩
    · refine (contWith_spec ho hS hg hG).bind fun c hc => ?_
      have c0 : val c ≠ 0 := hc.2.ne_zero G0'
      have hfree : pFirstVar G ∉ (val F).vars := fun hm => by
        rcases (top_iff ho hF.ok).1 (first_spec ho hF.ok h2.1).1 _ hm with e | e
        · exact hne e.symm
        · exact h e
      refine (ih F c hF hc.1 F0 (fun e => c0 (by rw [e, val_nil]))).mono fun e he => ?_
      match e, he with
      | .inl r, he => exact ⟨he.1, IsGcd.symm' (isGcd_cont F0' hfree hc.2 (IsGcd.symm' he.2))⟩
      | .inr FG, he => exact ⟨he.1, he.2.1, he.2.2.1, he.2.2.2.1, he.2.2.2.2.1, he.2.2.2.2.2.1, he.2.2.2.2.2.2.1,
          fun d hd => IsGcd.symm' (isGcd_cont F0' hfree hc.2 (IsGcd.symm' (he.2.2.2.2.2.2.2 d hd)))⟩

/-- the operands of the prime loop -/
structure LoopIn (vc : Var → Var → Bool) (V : Finset Var) (N : ℕ) (v : Var) (F G cg : PV Mono ℤ) : Prop where
  v0 : v ≠ 0
  hF : In vc V N F
  hG : In vc V N G
  fF : pFirstVar F = v
  fG : pFirstVar G = v
  pF : PrimWrt v (val F)
  pG : PrimWrt v (val G)
  hc : In vc V N cg
  c0 : val cg ≠ 0
  big : ∃ A : MvPolynomial Var ℤ, A ≠ 0 ∧ (∀ w, A.degreeOf w ≤ N) ∧ val F * val cg ∣ A

/-- what a return of the prime loop satisfies -/
def LoopOut (vc : Var → Var → Bool) (V : Finset Var) (N : ℕ) (F G cg r : PV Mono ℤ) : Prop := In vc V N r ∧ ∃ h, IsGcd h (val F) (val G) ∧ val r = h * val cg

theorem LoopIn.F0 {v : Var} {F G cg : PV Mono ℤ} (h : LoopIn vc V N v F G cg) : F ≠ [] := by rintro rfl; exact h.pF.ne_zero val_nil
theorem LoopIn.G0 {v : Var} {F G cg : PV Mono ℤ} (h : LoopIn vc V N v F G cg) : G ≠ [] := by rintro rfl; exact h.pG.ne_zero val_nil

/-- the variables of both operands -/
noncomputable def uv (F G : PV Mono ℤ) : Finset Var := (val F).vars ∪ (val G).vars

theorem LoopIn.uv_sub {v : Var} {F G cg : PV Mono ℤ} (h : LoopIn vc V N v F G cg) : uv F G ⊆ V := Finset.union_subset h.hF.vars h.hG.vars

theorem LoopIn.top (ho : VarOrd vc) {v : Var} {F G cg : PV Mono ℤ} (h : LoopIn vc V N v F G cg) {q : PV Mono ℤ} (hq : In vc (uv F G) N q) : Top vc v q := by
  refine (top_iff ho hq.ok).2 fun w hw => ?_
  have hFt := (first_spec ho h.hF.ok (by rw [h.fF]; exact h.v0)).1
  have hGt := (first_spec ho h.hG.ok (by rw [h.fG]; exact h.v0)).1
  rw [h.fF] at hFt
  rw [h.fG] at hGt
  rcases Finset.mem_union.1 (hq.vars hw) with h' | h'
  · exact (top_iff ho h.hF.ok).1 hFt w h'
  · exact (top_iff ho h.hG.ok).1 hGt w h'

/-- the sizes for which the division by a content cannot produce a multiple of the modulus; needed for the code (`strict = false`) only -/
def Tame (strict : Bool) (V : Finset Var) (N : ℕ) (prev : ℕ → Option ℕ) : Prop :=
  strict = false → growB (V.card - 1) N ≤ 2 ^ 63 ∧ ∀ n q, prev n = some q → growB (V.card - 1) N ≤ q

/-- for one variable there is no condition -/
theorem tame_one {V : Finset Var} (hV : V.card ≤ 1) {prev : ℕ → Option ℕ} (hprev : Upoly.PrevOK prev) : Tame strict V N prev := by
  have e : V.card - 1 = 0 := by omega
  intro _
  rw [e]
  exact ⟨by simp [growB], fun n q h => by rw [show growB 0 N = 1 from by simp [growB]]; exact (hprev n q h).2.pos⟩

theorem coeff_bound {vc : Var → Var → Bool} {mc : Mono → Mono → Bool} (M : MonoOrd vc mc) {p : PV Mono ℤ} (hp : PolyOK vc mc p) {a K : ℤ} (hK : 0 ≤ K) (h : ∀ t ∈ p, a * |t.2| ≤ K)
    (u : Var →₀ ℕ) : a * |coeff u (val p)| ≤ K := by
  by_cases hu : ∃ t ∈ p, expo t.1 = u
  · obtain ⟨t, ht, rfl⟩ := hu
    rw [hp.coeff_mem M ht]; exact h t ht
  · push Not at hu
    rw [coeff_val_not_mem hu, abs_zero, mul_zero]; exact hK

theorem unit_pm {f : MvPolynomial Var ℤ} (h : IsUnit f) : f = 1 ∨ f = -1 := by
  rw [MvPolynomial.isUnit_iff_eq_C_of_isReduced] at h
  obtain ⟨w, hw, e⟩ := h
  rw [e]
  rcases Int.isUnit_iff.1 hw with rfl | rfl
  · left; rfl
  · right; simp

/-- the accumulated image -/
structure Acc (strict : Bool) (vc : Var → Var → Bool) (N : ℕ) (v : Var) (F G pout : PV Mono ℤ) (d : Int) (PP : ℤ) : Prop where
  hin : In vc (uv F G) N pout
  ne : pout ≠ []
  deg : ((val pout).degreeOf v : Int) = d
  bound : ∀ e, e ∣ val F → e ∣ val G → (e.degreeOf v : Int) ≤ d
  PPpos : 0 < PP
  small : ∀ t ∈ pout, ¬ PP ∣ t.2
  sz : strict = false → (∀ u, |coeff u (val pout)| < PP) ∧ ((∀ u, 2 * |coeff u (val pout)| ≤ PP) ∨ PrimWrt v (val pout))

theorem finish_spec (ho : VarOrd vc) (hS : Small V N) {gcd : PV Mono ℤ → PV Mono ℤ → Run (PV Mono ℤ)} (hg : GSpec vc V N gcd) (dfuel : ℕ) {v : Var} {F G cg pout : PV Mono ℤ}
    {d : Int} {PP : ℤ} (h : LoopIn vc V N v F G cg) (ha : Acc strict vc N v F G pout d PP)
    (hgrow : strict = false → ∀ q c : MvPolynomial Var ℤ, val pout = q * c → v ∉ c.vars → ∀ u, |coeff u q| < PP) :
    Post (finish vc strict gcd dfuel F G cg pout PP) fun o =>
      match o with
      | .inl r => LoopOut vc V N F G cg r
      | .inr q => Acc strict vc N v F G q d PP := by
  have M := lex_ord ho
  have hpin := ha.hin.sub h.uv_sub
  have p0 : val pout ≠ 0 := fun e => ha.ne ((ha.hin.ok.val_eq_zero M).1 e)
  unfold finish
  refine Post.ite (fun hv => ?_) fun hv => Post.ret ?_
  · rw [h.fF] at hv
    refine (contWith_spec ho hS hg hpin).bind fun c hc => ?_
    rw [hv] at hc
    refine (Post.lift fun q hq => quoZ_dvd ho hS hpin p0 hc.1 hc.2.dvd hq).bind fun q hq => ?_
    have q0 : val q ≠ 0 := fun e => p0 (by rw [hq.2, e, zero_mul])
    have c0 := hc.2.ne_zero p0
    have q0' : q ≠ [] := fun e => q0 (by rw [e, val_nil])
    have hdq : ((val q).degreeOf v : Int) = d := by
      rw [← ha.deg, hq.2, degreeOf_mul_dom q0 c0, degreeOf_zero_iff.2 hc.2.free, add_zero]
    have hqU : In vc (uv F G) N q := ha.hin.of_dvd p0 hq.1.ok (hq.2 ▸ dvd_mul_right _ _)
    refine (Post.lift fun r1 hr1 => quoRemZ_test ho hS h.hF hq.1.ok (hq.1.deg63 M hS) q0' hr1).bind fun r1 hr1 => ?_
    refine (Post.ite (Q := fun r2 : PV Mono ℤ × PV Mono ℤ => r2.2 = [] → val q ∣ val F ∧ val q ∣ val G)
      (fun h1 => Post.lift fun r2 hr2 => fun h2 => ⟨hr1.1 h1, (quoRemZ_test ho hS h.hG hq.1.ok (hq.1.deg63 M hS) q0' hr2).1 h2⟩)
      fun h1 => Post.ret fun h2 => absurd h2 h1).bind fun r2 hr2 => ?_
    refine Post.ite (fun h2 => ?_) fun h2 => Post.ite (fun _ => Post.fail) fun hs => Post.ret ?_
    · obtain ⟨d1, d2⟩ := hr2 h2
      have hgcd : IsGcd (val q) (val F) (val G) := isGcd_of_degree h.pF d1 d2 fun e e1 e2 => by
        have := ha.bound e e1 e2
        rw [← hdq] at this
        exact_mod_cast this
      obtain ⟨A, A0, A1, A2⟩ := h.big
      have hdv : val q * val cg ∣ A := (mul_dvd_mul_right d1 _).trans A2
      have hdeg : ∀ w, (val q * val cg).degreeOf w ≤ N := fun w => (degreeOf_le_of_dvd hdv A0).trans (A1 w)
      obtain ⟨r, hr, hr1, hr2⟩ := polyMul_in ho hS hq.1.ok h.hc.ok q0 h.c0 hq.1.vars h.hc.vars hdeg
      rw [hr]
      refine (Post.ret (a := r) (Q := fun x => x = r) rfl).bind fun _ e => Post.ret ?_
      subst e
      refine ⟨⟨hr1, ?_, ?_⟩, val q, hgcd, hr2⟩
      · rw [hr2]; exact (vars_mul _ _).trans (Finset.union_subset hq.1.vars h.hc.vars)
      · rw [hr2]; exact hdeg
    · have hsm : strict = false → ∀ u, |coeff u (val q)| < PP := fun e => hgrow e _ _ hq.2 hc.2.free
      refine ⟨hqU, q0', hdq, ha.bound, ha.PPpos, fun t ht => ?_, fun e => ⟨hsm e, .inr (hc.2.prim p0 hq.2)⟩⟩
      cases strict with
      | false =>
        intro hd
        have h1 := Int.le_of_dvd (abs_pos.2 (hqU.ok.canon.2 t ht)) ((dvd_abs _ _).2 hd)
        have h2 := hsm rfl (expo t.1)
        rw [hqU.ok.coeff_mem M ht] at h2
        omega
      | true =>
        simp only [Bool.true_and, Bool.not_eq_true', Bool.not_eq_false] at hs
        exact of_decide_eq_true (List.all_eq_true.1 hs t ht)
  · have hd0 : (val pout).degreeOf v = 0 := by
      by_contra hc
      exact hv (by rw [h.fF]; exact first_of_top ho ha.hin.ok (h.top ho ha.hin) (by omega))
    refine ⟨h.hc, 1, isGcd_of_degree h.pF (one_dvd _) (one_dvd _) fun e e1 e2 => ?_, (one_mul _).symm⟩
    have := ha.bound e e1 e2
    rw [← ha.deg, hd0] at this
    have : e.degreeOf v ≤ 0 := by exact_mod_cast this
    omega

/-- the invariant of the prime loop; `b = true` before the next prime is taken -/
structure ZInv (strict : Bool) (vc : Var → Var → Bool) (V : Finset Var) (N : ℕ) (v : Var) (F G : PV Mono ℤ) (s : St) : Prop where
  prime : s.prime.Prime
  big : strict = false → growB (V.card - 1) N ≤ s.prime
  acc : s.d = 2 ^ 63 - 1 ∨ Acc strict vc N v F G s.pout s.d s.PP ∧ ∀ q : ℕ, q.Prime → (q : ℤ) ∣ s.PP → s.prime < q

theorem nextPrime_spec {prev : ℕ → Option ℕ} (hprev : Upoly.PrevOK prev) (hT : Tame strict V N prev) {v : Var} {F G : PV Mono ℤ} {k : St → Run (PV Mono ℤ)} {Q : PV Mono ℤ → Prop} {s : St}
    (hk : ∀ s', ZInv strict vc V N v F G s' → Post (k s') Q)
    (hs : s.d = 2 ^ 63 - 1 ∨ Acc strict vc N v F G s.pout s.d s.PP ∧ ∀ q : ℕ, q.Prime → (q : ℤ) ∣ s.PP → s.prime ≤ q) : Post (nextPrime prev k s) Q := by
  unfold nextPrime
  cases hq : prev s.prime with
  | none => exact Post.fail
  | some q =>
    have h := hprev _ _ hq
    refine hk _ ⟨h.2, fun e => (hT e).2 _ _ hq, hs.imp id fun h' => ⟨h'.1, fun r hr hd => lt_of_lt_of_le h.1 (h'.2 r hr hd)⟩⟩

/-- the first coefficient survives: degree and main variable are the same modulo `p` -/
theorem mod_first (ho : VarOrd vc) {p : ℕ} [hp : Fact p.Prime] {F : PV Mono ℤ} {f : Mono × ℤ} {F' : PV Mono ℤ} (e : F = f :: F') (hF : LP vc F) {v : Var} (hv : pFirstVar F = v) (v0 : v ≠ 0)
    (h : ¬ Int.tmod f.2 p = 0) :
    pFirstVar (polyMod p F) = v ∧ (val (polyMod p F)).degreeOf v = (val F).degreeOf v ∧ val (polyMod p F) ≠ 0 := by
  have M := lex_ord ho
  rw [Upoly.tmod_eq_zero_iff] at h
  obtain ⟨h1, h2⟩ := polyMod_spec (n := p) hF
  have e' : polyMod p F = (f.1, (f.2 : ZMod p)) :: polyMod p F' := by
    rw [e, polyMod, List.filterMap_cons_some (b := (f.1, (f.2 : ZMod p))) (by simp [h])]; rfl
  have hfv : pFirstVar (polyMod p F) = v := by rw [e', ← hv, e]; rfl
  have hfd : pFirstDeg (polyMod p F) = pFirstDeg F := by rw [e', e]; rfl
  have a := (first_spec ho h1 (by rw [hfv]; exact v0)).2.2
  have b := (first_spec ho hF (by rw [hv]; exact v0)).2.2
  rw [hfv, hfd] at a
  rw [hv] at b
  refine ⟨hfv, ?_, fun hc => ?_⟩
  · rw [a] at b; exact_mod_cast b
  · rw [h1.val_eq_zero M, e'] at hc; simp at hc

theorem primeLoop_spec (ho : VarOrd vc) (hS : Small V N) {prev : ℕ → Option ℕ} (hprev : Upoly.PrevOK prev) (hT : Tame strict V N prev) {gcd : PV Mono ℤ → PV Mono ℤ → Run (PV Mono ℤ)}
    (hg : GSpec vc V N gcd) (dfuel : ℕ) {v : Var} {F G cg lg : PV Mono ℤ} (h : LoopIn vc V N v F G cg) (hl : LP vc lg) (hlg : val lg ∣ lcV v (val F)) :
    ∀ (fuel : ℕ) (s : St), ZInv strict vc V N v F G s → Post (primeLoop vc strict prev gcd dfuel F G cg lg fuel s) (LoopOut vc V N F G cg) := by
  have M := lex_ord ho
  intro fuel
  induction fuel with
  | zero => intro s _; exact Post.fail
  | succ fuel ih =>
    intro s hs
    unfold primeLoop
    have hnext := fun (s : St) (h' : s.d = 2 ^ 63 - 1 ∨ Acc strict vc N v F G s.pout s.d s.PP ∧ ∀ q : ℕ, q.Prime → (q : ℤ) ∣ s.PP → s.prime ≤ q) =>
      nextPrime_spec (Q := LoopOut vc V N F G cg) hprev hT (fun s' => ih s') h'
    have hs' : s.d = 2 ^ 63 - 1 ∨ Acc strict vc N v F G s.pout s.d s.PP ∧ ∀ q : ℕ, q.Prime → (q : ℤ) ∣ s.PP → s.prime ≤ q :=
      hs.acc.imp id fun a => ⟨a.1, fun q h1 h2 => (a.2 q h1 h2).le⟩
    obtain ⟨f, F', eF⟩ := List.exists_cons_of_ne_nil h.F0
    obtain ⟨g, G', eG⟩ := List.exists_cons_of_ne_nil h.G0
    split
    rotate_left
    · exact Post.fail
    rename_i f' F'' g' G'' 
    refine Post.ite (fun _ => hnext s hs') fun hne => ?_
    have hpr := hs.prime
    rw [dif_pos hpr]
    haveI := Fact.mk hpr
    push Not at hne
    obtain ⟨f1, f2, f3⟩ := mod_first ho rfl h.hF.ok h.fF h.v0 hne.1
    obtain ⟨g1, g2, g3⟩ := mod_first ho rfl h.hG.ok h.fG h.v0 hne.2
    clear eF eG
    obtain ⟨F, hFe⟩ : ∃ F, f' :: F'' = F := ⟨_, rfl⟩
    obtain ⟨G, hGe⟩ : ∃ G, g' :: G'' = G := ⟨_, rfl⟩
    rw [hFe, hGe] at ih hs hs' hnext h ⊢
    rw [hFe] at f1 f2 f3 hlg
    rw [hGe] at g1 g2 g3
    obtain ⟨oF, eqF⟩ := polyMod_spec (n := s.prime) h.hF.ok
    obtain ⟨oG, eqG⟩ := polyMod_spec (n := s.prime) h.hG.ok
    obtain ⟨oL, eqL⟩ := polyMod_spec (n := s.prime) hl
    have dF : ∀ w, (val (polyMod s.prime F)).degreeOf w ≤ N := fun w => by rw [eqF]; exact (degreeOf_map_le' _ _ _).trans (h.hF.deg w)
    have dG : ∀ w, (val (polyMod s.prime G)).degreeOf w ≤ N := fun w => by rw [eqG]; exact (degreeOf_map_le' _ _ _).trans (h.hG.deg w)
    have vF : (val (polyMod s.prime F)).vars ⊆ (val F).vars := by rw [eqF]; exact vars_map_le _ _
    have vG : (val (polyMod s.prime G)).vars ⊆ (val G).vars := by rw [eqG]; exact vars_map_le _ _
    have hmax := hS.max
    have hin : PIn vc (polyMod s.prime F) (polyMod s.prime G) (polyMod s.prime lg) :=
      ⟨oF, oG, oL, fun hc => h.hF.zero hS (vF hc), fun hc => h.hG.zero hS (vG hc), fun w => by have := dF w; omega, fun w => by have := dG w; omega, fun _ => by
        rw [f1, eqL]
        have e1 : lcV v (val (polyMod s.prime F)) = map (Int.castRingHom (ZMod s.prime)) (lcV v (val F)) := by
          unfold lcV
          rw [f2, eqF, toU_mapC, Polynomial.coeff_map]
        rw [e1]
        exact map_dvd _ hlg⟩
    refine (gcdP_spec ho dfuel dfuel _ _ _ s.d hin).bind fun o ho' => ?_
    match o, ho' with
    | none, _ => exact hnext s hs'
    | some Pd, ho' =>
      obtain ⟨hP, hle⟩ := ho' Pd rfl
      have hle := hle (by rw [f1]; exact h.v0)
      have hexp : ∀ t ∈ Pd.1, ∀ w, E t.1.data w ≤ N ∧ (0 < E t.1.data w → w ∈ uv F G) := by
        intro t ht w
        have a := hP.ok.exp_le M ht w
        have b := hP.dom w
        have c := dF w
        have d := dG w
        have hb : E t.1.data w ≤ (max ((val (polyMod s.prime F)).degreeOf w) ((val (polyMod s.prime G)).degreeOf w) : ℕ) := a.trans (by exact_mod_cast b)
        refine ⟨hb.trans (by exact_mod_cast max_le c d), fun hpos => ?_⟩
        by_contra hn
        have n1 : w ∉ (val (polyMod s.prime F)).vars := fun hc => hn (Finset.mem_union_left _ (vF hc))
        have n2 : w ∉ (val (polyMod s.prime G)).vars := fun hc => hn (Finset.mem_union_right _ (vG hc))
        rw [degreeOf_zero_iff.2 n1, degreeOf_zero_iff.2 n2] at hb
        simp at hb
        omega
      have hPdeg : ((val Pd.1).degreeOf v : Int) = Pd.2 := by rw [← f1]; exact hP.deg
      have hPbound : ∀ e, e ∣ val F → e ∣ val G → (e.degreeOf v : Int) ≤ Pd.2 := by
        intro e e1 e2
        have k := hP.max (map (Int.castRingHom (ZMod s.prime)) e) (by rw [eqF]; exact map_dvd _ e1) (by rw [eqG]; exact map_dvd _ e2)
        rw [f1, degreeOf_image (v := v) (map (Int.castRingHom (ZMod s.prime))) (fun k => degreeOf_map_le' _ _ _) h.pF.ne_zero (by rw [← eqF]; exact f3) (by rw [← eqF]; exact f2) e1] at k
        exact k
      have hd0 : 0 ≤ Pd.2 := by rw [← hPdeg]; positivity
      have hdN : Pd.2 ≤ N := by
        rw [← hPdeg]
        have := degreeOf_le_of_list M hP.ok (w := v) (b := N) fun t ht => (hexp t ht v).1
        exact_mod_cast this
      refine Post.ite (fun hlt => hnext _ (.inr ⟨⟨?_, ?_, ?_, hPbound, ?_, ?_, ?_⟩, ?_⟩)) fun hge => ?_
      · obtain ⟨a, b, c⟩ := liftFirst_spec hP.ok
        refine in_of_exp ho a fun t ht => ?_
        have : t.1 ∈ (liftFirst s.prime Pd.1).map Prod.fst := List.mem_map_of_mem ht
        rw [b] at this
        obtain ⟨u, hu, e⟩ := List.mem_map.1 this
        rw [← e]; exact hexp u hu
      · intro hc
        have := congrArg List.length hc
        simp [liftFirst] at this
        exact hP.ne this
      · obtain ⟨a, b, c⟩ := liftFirst_spec hP.ok
        show ((val (liftFirst s.prime Pd.1)).degreeOf v : Int) = Pd.2
        rw [← hPdeg]
        obtain ⟨t, ht, te⟩ := hP.ok.exists_exp M hP.ne v
        have : t.1 ∈ Pd.1.map Prod.fst := List.mem_map_of_mem ht
        rw [← b] at this
        obtain ⟨u, hu, e⟩ := List.mem_map.1 this
        refine (degreeOf_eq_of M a v (fun x hx => ?_) (.inr ⟨u, hu, by rw [e, te]⟩)).symm
        have : x.1 ∈ (liftFirst s.prime Pd.1).map Prod.fst := List.mem_map_of_mem hx
        rw [b] at this
        obtain ⟨y, hy, e⟩ := List.mem_map.1 this
        rw [← e]; exact hP.ok.exp_le M hy v
      · show (0 : ℤ) < (s.prime : ℤ)
        exact_mod_cast hs.prime.pos
      · obtain ⟨a, _, c⟩ := liftFirst_spec hP.ok
        intro t ht hd
        have h1 : (s.prime : ℤ) ≤ |t.2| := Int.le_of_dvd (abs_pos.2 (a.canon.2 t ht)) ((dvd_abs _ _).2 hd)
        have h2 := c t ht
        have h3 := abs_pos.2 (a.canon.2 t ht)
        omega
      · obtain ⟨a, _, c⟩ := liftFirst_spec hP.ok
        intro _
        have hp0 : (0 : ℤ) < s.prime := by exact_mod_cast hs.prime.pos
        have hb := coeff_bound M a hp0.le c
        exact ⟨fun u => by have := hb u; show |coeff u (val (liftFirst s.prime Pd.1))| < (s.prime : ℤ); omega, .inl hb⟩
      · intro q hq hd
        have hd : (q : ℤ) ∣ (s.prime : ℤ) := hd
        have : q ∣ s.prime := by exact_mod_cast hd
        rw [(Nat.prime_dvd_prime_iff_eq hq hs.prime).1 this]
      have hdeq : Pd.2 = s.d := by omega
      obtain ⟨hacc, hprimes⟩ := hs.acc.resolve_left (by omega)
      have hcop : ¬ (s.prime : ℤ) ∣ s.PP := fun hd => lt_irrefl _ (hprimes _ hs.prime hd)
      obtain ⟨t1, t2, t3, t4, t5⟩ := crtStep_spec M hacc.hin.ok hP.ok hacc.PPpos hacc.small hcop
      have hp0 : (0 : ℤ) < s.prime := by exact_mod_cast hs.prime.pos
      have hPP := mul_pos hacc.PPpos hp0
      have hb := coeff_bound M t1 hPP.le t5
      have hacc' : Acc strict vc N v F G (crtStep vc s.prime s.PP s.pout Pd.1) s.d (s.PP * s.prime) := by
        refine ⟨in_of_exp ho t1 fun t ht w => ?_, fun hc => ?_, ?_, hacc.bound, hPP, t4, fun _ => ⟨fun u => by have := hb u; omega, .inl hb⟩⟩
        · rcases t2 t ht with ⟨a, ha, e⟩ | ⟨b, hb, e⟩
          · rw [← e]
            refine ⟨(hacc.hin.ok.exp_le M ha w).trans (by exact_mod_cast hacc.hin.deg w), fun hpos => hacc.hin.vars ?_⟩
            by_contra hn
            have := hacc.hin.ok.exp_le M ha w
            rw [degreeOf_zero_iff.2 hn] at this
            simp at this
            omega
          · rw [← e]; exact hexp b hb w
        · obtain ⟨a, ha⟩ := List.exists_mem_of_ne_nil _ hacc.ne
          obtain ⟨t, ht, _⟩ := t3 a ha
          rw [hc] at ht; simp at ht
        · obtain ⟨a, ha, ae⟩ := hacc.hin.ok.exists_exp M hacc.ne v
          obtain ⟨t, ht, te⟩ := t3 a ha
          rw [hacc.deg] at ae
          refine (degreeOf_eq_of M t1 v (fun x hx => ?_) (.inr ⟨t, ht, by rw [te, ae]⟩)).symm
          rcases t2 x hx with ⟨a, ha, e⟩ | ⟨b, hb, e⟩
          · rw [← e, ← hacc.deg]; exact hacc.hin.ok.exp_le M ha v
          · rw [← e, ← hdeq, ← hPdeg]; exact hP.ok.exp_le M hb v
      have hprimes' : ∀ q : ℕ, q.Prime → (q : ℤ) ∣ s.PP * s.prime → s.prime ≤ q := by
        intro q hq hd
        rcases (Nat.prime_iff_prime_int.1 hq).dvd_or_dvd hd with hd | hd
        · exact (hprimes q hq hd).le
        · have : q ∣ s.prime := by exact_mod_cast hd
          rw [(Nat.prime_dvd_prime_iff_eq hq hs.prime).1 this]
      refine Post.ite (fun hst => ?_) fun _ => hnext _ (.inr ⟨hacc', hprimes'⟩)
      refine (finish_spec ho hS hg dfuel h hacc' fun e q c hqc hcf u => ?_).bind fun o ho' => ?_
      · rw [hst] at hqc
        obtain ⟨z1, z2⟩ := hacc.sz e
        have p0 : val s.pout ≠ 0 := fun e => hacc.ne ((hacc.hin.ok.val_eq_zero M).1 e)
        have hpb : (growB (V.card - 1) N : ℤ) ≤ s.prime := by exact_mod_cast hs.big e
        have hPP0 := hacc.PPpos
        rcases z2 with z2 | z2
        · have hv : v ∈ V := by
            have := (first_spec ho h.hF.ok (by rw [h.fF]; exact h.v0)).2.1
            rw [h.fF] at this
            refine h.hF.vars ?_
            by_contra hc
            rw [degreeOf_zero_iff.2 hc] at this
            omega
          have g := growth (V := V) (N := N) hqc p0 hcf (hacc.hin.vars.trans h.uv_sub) hacc.hin.deg (K := s.PP / 2) (fun u => by have := z2 u; omega) u
          rw [Finset.card_erase_of_mem hv] at g
          obtain ⟨B, hB⟩ : ∃ B : ℤ, B = growB (V.card - 1) N := ⟨_, rfl⟩
          rw [← hB] at g hpb
          have k0 : 0 ≤ s.PP / 2 := by omega
          have k1 : 2 * (s.PP / 2) ≤ s.PP := by omega
          have g2 : B * s.PP ≤ s.PP * s.prime := by rw [mul_comm]; exact mul_le_mul_of_nonneg_left hpb hPP0.le
          have hB0 : 0 < B := by rw [hB]; exact_mod_cast growB_pos _ _
          nlinarith
        · have hu := z2 c hcf (hqc ▸ dvd_mul_left _ _)
          have e1 : |coeff u q| = |coeff u (val s.pout)| := by
            rcases unit_pm hu with e | e
            · rw [hqc, e, mul_one]
            · rw [hqc, e, mul_neg, mul_one, coeff_neg, abs_neg]
          rw [e1]
          refine (z1 u).trans_le ?_
          nlinarith
      match o, ho' with
      | .inl r, ho' => exact Post.ret ho'
      | .inr q, ho' => exact hnext _ (.inr ⟨ho', hprimes'⟩)

/-- `polynomial_GCD` (strict version, or the code for tame sizes) is correct whenever it returns -/
theorem gcdZ_spec' (ho : VarOrd vc) (hS : Small V N) {prev : ℕ → Option ℕ} (hprev : Upoly.PrevOK prev) (hT : Tame strict V N prev) (dfuel : ℕ) : ∀ fuel, GSpec vc V N (gcdZ vc strict prev dfuel fuel) := by
  have M := lex_ord ho
  intro fuel
  induction fuel with
  | zero => intro F G _ _; exact Post.fail
  | succ fuel ih =>
    intro F G hF hG
    unfold gcdZ
    refine Post.ite (fun e => Post.ret ⟨hG, by rw [e, val_nil]; exact isUnit_gcd_left⟩) fun F0 => ?_
    refine Post.ite (fun e => Post.ret ⟨hF, by rw [e, val_nil]; exact IsGcd.symm' isUnit_gcd_left⟩) fun G0 => ?_
    have F0' : val F ≠ 0 := fun h => F0 ((hF.ok.val_eq_zero M).1 h)
    refine Post.ite (fun e => Post.ret ?_) fun _ => ?_
    · obtain ⟨a, b⟩ := termGcd_spec ho hF.ok hG.ok F0 e
      exact ⟨hF.of_dvd F0' a b.1, b⟩
    refine (equalize_spec ho hS ih dfuel F G hF hG F0 G0).bind fun e he => ?_
    match e, he with
    | .inl r, he => exact Post.ret he
    | .inr (A, B), he =>
      obtain ⟨hA, hB, A0, B0, hv, v0, hAF, hfin⟩ := he
      dsimp only at hA hB A0 B0 hv v0 hAF hfin ⊢
      have A0' : val A ≠ 0 := fun h => A0 ((hA.ok.val_eq_zero M).1 h)
      have B0' : val B ≠ 0 := fun h => B0 ((hB.ok.val_eq_zero M).1 h)
      refine (contWith_spec ho hS ih hA).bind fun Fc hFc => ?_
      refine (contWith_spec ho hS ih hB).bind fun Gc hGc => ?_
      rw [← hv] at hGc
      refine (ih Fc Gc hFc.1 hGc.1).bind fun cg hcg => ?_
      refine (Post.lift fun q hq => quoZ_dvd ho hS hA A0' hFc.1 hFc.2.dvd hq).bind fun F1 hF1 => ?_
      refine (Post.lift fun q hq => quoZ_dvd ho hS hB B0' hGc.1 hGc.2.dvd hq).bind fun G1 hG1 => ?_
      have keep : ∀ {A Fc F1 : PV Mono ℤ}, In vc V N A → val A ≠ 0 → pFirstVar A ≠ 0 → IsCont (pFirstVar A) (val A) (val Fc) → In vc V N F1 ∧ val A = val F1 * val Fc →
          pFirstVar F1 = pFirstVar A := by
        intro A Fc F1 hA A0 v0 hc hq
        have f0 : val F1 ≠ 0 := fun e => A0 (by rw [hq.2, e, zero_mul])
        have c0 := hc.ne_zero A0
        obtain ⟨s1, s2, s3⟩ := first_spec ho hA.ok v0
        refine first_of_top ho hq.1.ok ?_ ?_
        · exact (top_iff ho hq.1.ok).2 fun w hw => (top_iff ho hA.ok).1 s1 w (vars_of_dvd (hq.2 ▸ dvd_mul_right _ _) A0 hw)
        · rw [hq.2, degreeOf_mul_dom f0 c0, degreeOf_zero_iff.2 hc.free] at s2
          omega
      have fv := keep hA A0' v0 hFc.2 hF1
      have gv := keep hB B0' (by rw [← hv]; exact v0) (by rw [← hv]; exact hGc.2) hG1
      have c0 : val cg ≠ 0 := fun e => hFc.2.ne_zero A0' (by have := hcg.2.1; rw [e] at this; exact zero_dvd_iff.1 this)
      obtain ⟨l1, l2, l3⟩ := leadLex_spec ho hF1.1.ok (first_ne_zero ho hF1.1.ok (hF1.1.zero hS) (by rw [fv]; exact v0))
      obtain ⟨m1, m2, m3⟩ := leadLex_spec ho hG1.1.ok (first_ne_zero ho hG1.1.ok (hG1.1.zero hS) (by rw [gv, ← hv]; exact v0))
      refine (ih _ _ (hF1.1.of_coeff l1 l3) (hG1.1.of_coeff m1 m3)).bind fun lg hlg => ?_
      have hL : LoopIn vc V N (pFirstVar A) F1 G1 cg :=
        { v0 := v0
          hF := hF1.1
          hG := hG1.1
          fF := fv
          fG := by rw [gv, hv]
          pF := hFc.2.prim A0' hF1.2
          pG := hGc.2.prim B0' hG1.2
          hc := hcg.1
          c0 := c0
          big := ⟨val A, A0', hA.deg, by rw [hF1.2]; exact mul_dvd_mul_left _ hcg.2.1⟩ }
      refine (primeLoop_spec ho hS hprev hT ih dfuel hL hlg.1.ok ?_ dfuel _ ⟨Upoly.firstPrime_prime, fun e => (hT e).1.trans (by unfold Upoly.firstPrime; norm_num), .inl rfl⟩).mono fun r hr => ?_
      · rw [fv, isCoeff_iff] at l3
        have := hlg.2.1
        rw [l3] at this
        exact this
      · obtain ⟨r1, h', r2, r3⟩ := hr
        refine ⟨r1, hfin _ ?_⟩
        rw [r3]
        exact isGcd_assemble A0' B0' hFc.2 hGc.2 hF1.2 hG1.2 hcg.2 r2

/-- the strict version -/
theorem gcdZ_spec (ho : VarOrd vc) (hS : Small V N) {prev : ℕ → Option ℕ} (hprev : Upoly.PrevOK prev) (dfuel : ℕ) : ∀ fuel, GSpec vc V N (gcdZ vc true prev dfuel fuel) :=
  gcdZ_spec' ho hS hprev (by intro h; cases h) dfuel

end Mgcd
end CLPoly
