import Verif.Factor.Bridge
import Verif.Upoly.GcdDiverge
import Verif.Gcd.ZSpec

/-!
# A run of the multivariate gcd that never returns

The same polynomial `F = 2x + N` as in Upoly/GcdDiverge.lean, as a polynomial in the variable `x`; polynomial_gcd.hh 328–447 has the same loop.
-/

namespace CLPoly
namespace Mgcd
open Mono Run MvPolynomial Factor
open Upoly (UPoly lostN lostF lostN_pos lostF_is lost_crt lin_is lin_coeff Lost PrevOK firstPrime secondPrime firstPrime_prime secondPrime_prime)

variable {vc : Var → Var → Bool}

theorem powMono_zero (x : Var) : powMono x 0 = Mono.one := rfl

theorem powMono_lex (ho : VarOrd vc) (x : Var) (a b : ℕ) : lexGt vc (powMono x a) (powMono x b) = Upoly.comp a b := by
  rcases lt_trichotomy a b with h | h | h
  · rw [show Upoly.comp a b = false by simp [Upoly.comp]; omega]
    by_contra hc
    have M := lex_ord ho
    rw [Bool.not_eq_false] at hc
    have := M.lawful.trans _ _ _ (powMono_valid x a) (powMono_valid x b) (powMono_valid x a) hc (powMono_gt ho x h)
    rw [M.lawful.irrefl _ (powMono_valid x a)] at this
    exact absurd this (by simp)
  · rw [h, (lex_ord ho).lawful.irrefl _ (powMono_valid x b)]; simp [Upoly.comp]
  · rw [powMono_gt ho x h]; simp [Upoly.comp, h]

theorem powMono_inj (x : Var) {a b : ℕ} : powMono x a = powMono x b ↔ a = b := by
  refine ⟨fun h => ?_, fun h => by rw [h]⟩
  have := congrArg (fun m => expo m x) h
  simpa [powMono_expo] using this

theorem up_crtMerge (ho : VarOrd vc) (x : Var) (p : ℕ) (inv PP : ℤ) (l : UPoly ℤ) (m : UPoly (ZMod p)) :
    crtMerge vc p inv PP (upolyToPoly x l) (upolyToPoly x m) = upolyToPoly x (Upoly.crtMerge p inv PP l m) := by
  induction l, m using Upoly.crtMerge.induct p with
  | case1 => simp [upolyToPoly, crtMerge, Upoly.crtMerge]
  | case2 a l ih =>
    simp only [upolyToPoly, List.map_cons, List.map_nil] at ih ⊢
    rw [crtMerge, Upoly.crtMerge, ih]; rfl
  | case3 b m ih =>
    simp only [upolyToPoly, List.map_cons, List.map_nil] at ih ⊢
    rw [crtMerge, Upoly.crtMerge, ih]; rfl
  | case4 a l b m h ih =>
    simp only [upolyToPoly, List.map_cons] at ih ⊢
    rw [crtMerge, Upoly.crtMerge, if_pos h, if_pos (by rw [powMono_lex ho]; exact h), ih]; rfl
  | case5 a l b m h e ih =>
    simp only [upolyToPoly, List.map_cons] at ih ⊢
    rw [crtMerge, Upoly.crtMerge, if_neg h, if_pos e, if_neg (by rw [powMono_lex ho]; exact h), if_pos ((powMono_inj x).2 e), ih]; rfl
  | case6 a l b m h e ih =>
    simp only [upolyToPoly, List.map_cons] at ih ⊢
    rw [crtMerge, Upoly.crtMerge, if_neg h, if_neg e, if_neg (by rw [powMono_lex ho]; exact h), if_neg (fun h' => e ((powMono_inj x).1 h')), ih]; rfl

theorem up_crtStep (ho : VarOrd vc) (x : Var) (p : ℕ) (PP : ℤ) (l : UPoly ℤ) (m : UPoly (ZMod p)) :
    crtStep vc p PP (upolyToPoly x l) (upolyToPoly x m) = upolyToPoly x (Upoly.crtStep p PP l m) := by
  unfold crtStep Upoly.crtStep
  rw [up_crtMerge ho]
  simp [upolyToPoly]

theorem up_liftFirst (x : Var) (p : ℕ) (f : UPoly (ZMod p)) : liftFirst p (upolyToPoly x f) = upolyToPoly x (Upoly.liftFirst p f) := by
  unfold liftFirst Upoly.liftFirst upolyToPoly
  simp

theorem up_polyMod (x : Var) (p : ℕ) (f : UPoly ℤ) : polyMod p (upolyToPoly x f) = upolyToPoly x (Upoly.polyMod p f) := by
  unfold polyMod Upoly.polyMod upolyToPoly
  rw [List.filterMap_map, List.map_filterMap]
  congr 1
  funext t
  simp only [Function.comp]
  split <;> rfl

theorem up_inj (x : Var) {R : Type*} : Function.Injective (upolyToPoly (R := R) x) :=
  List.map_injective_iff.2 fun a b h => by
    rw [Prod.mk.injEq] at h
    exact Prod.ext ((powMono_inj x).1 h.1) h.2

/-- `2x + N` -/
def lostM (x : Var) : PV Mono ℤ := upolyToPoly x lostF

theorem small_x {x : Var} (x0 : x ≠ 0) : Small {x} 1 := ⟨by simpa using x0.symm, by simp [capLex], by norm_num⟩

theorem up_in (ho : VarOrd vc) (x : Var) {f : UPoly ℤ} {F : Polynomial ℤ} (hf : Upoly.Is f F) (h1 : F.natDegree ≤ 1) : In vc {x} 1 (upolyToPoly x f) := by
  obtain ⟨a, b⟩ := upolyToPoly_spec ho x hf
  exact ⟨a, by rw [b]; exact emb_vars x F, fun w => by rw [b]; exact (emb_degreeOf x F w).trans h1⟩

theorem nat1 (a b : ℤ) : (Polynomial.C a * Polynomial.X + Polynomial.C b).natDegree ≤ 1 := Polynomial.natDegree_linear_le

theorem c_is {c : ℤ} (hc : c ≠ 0) : Upoly.Is ([(0, c)] : UPoly ℤ) (Polynomial.C c) :=
  ⟨Upoly.canon_cons.2 ⟨by simp, hc, Upoly.canon_nil⟩, by rw [Upoly.toPoly_cons]; simp⟩

/-- `cont(a x + b)` -/
theorem cont_two {x : Var} (x0 : x ≠ 0) (strict : Bool) (prev : ℕ → Option ℕ) (dfuel fuel : ℕ) (a b : ℤ) :
    Post (contWith (gcdZ vc strict prev dfuel fuel) (upolyToPoly x [(1, a), (0, b)])) fun c => c = [(Mono.one, ((Int.gcd a b : ℕ) : ℤ))] := by
  have e : contWith (gcdZ vc strict prev dfuel fuel) (upolyToPoly x [(1, a), (0, b)]) = gcdZ vc strict prev dfuel fuel [(Mono.one, a)] [(Mono.one, b)] := by
    simp [contWith, contLoop, upolyToPoly, powMono, pFirstVar, firstVar, pFirstDeg, firstDeg, inBlock, blockDeg, stripMain, mkMono, sumDeg, Mono.one]
    rfl
  rw [e]
  cases fuel with
  | zero => exact Post.fail
  | succ fuel =>
    unfold gcdZ
    rw [if_neg (by simp), if_neg (by simp), if_pos (by simp)]
    exact Post.ret (by simp [termGcd, Mono.gcd, Mono.one])

/-- the gcd of two integers -/
theorem gcd_const (strict : Bool) (prev : ℕ → Option ℕ) (dfuel fuel : ℕ) (a b : ℤ) :
    Post (gcdZ vc strict prev dfuel fuel [(Mono.one, a)] [(Mono.one, b)]) fun c => c = [(Mono.one, ((Int.gcd a b : ℕ) : ℤ))] := by
  cases fuel with
  | zero => exact Post.fail
  | succ fuel =>
    unfold gcdZ
    rw [if_neg (by simp), if_neg (by simp), if_pos (by simp)]
    exact Post.ret (by simp [termGcd, Mono.gcd, Mono.one])

theorem two_ne {p : ℕ} (hp : p.Prime) (h2 : p ≠ 2) : ((2 : ℤ) : ZMod p) ≠ 0 := by
  rw [Ne, ZMod.intCast_zmod_eq_zero_iff_dvd]
  intro h
  have h' : p ∣ 2 := by exact_mod_cast h
  exact h2 ((Nat.prime_dvd_prime_iff_eq hp Nat.prime_two).1 h')

theorem lost_mod {p : ℕ} (hp : p.Prime) (h2 : p ≠ 2) : ∃ t : UPoly (ZMod p), Upoly.polyMod p lostF = (1, ((2 : ℤ) : ZMod p)) :: t ∧ (t = [] ∨ ∃ b, t = [(0, b)]) := by
  unfold Upoly.polyMod lostF
  rw [List.filterMap_cons_some (b := (1, ((2 : ℤ) : ZMod p))) (by rw [if_pos (two_ne hp h2)])]
  refine ⟨_, rfl, ?_⟩
  rw [List.filterMap_cons]
  split
  · left; rfl
  · rename_i b hb
    right
    split at hb
    · rw [Option.some.injEq] at hb; exact ⟨b.2, by rw [← hb]; rfl⟩
    · simp at hb

theorem lost_mod_is {p : ℕ} [Fact p.Prime] : Upoly.Is (Upoly.polyMod p lostF) ((Polynomial.C 2 * Polynomial.X + Polynomial.C lostN : Polynomial ℤ).map (Int.castRingHom (ZMod p))) :=
  Upoly.polyMod_is lostF_is

/-- the modular gcd of `F` with itself -/
theorem lost_image (ho : VarOrd vc) {x : Var} (x0 : x ≠ 0) {p : ℕ} (hp : p.Prime) (h2 : p ≠ 2) (dfuel fuel : ℕ) {deg : ℤ} (hd : 1 ≤ deg) :
    haveI := Fact.mk hp
    Post (gcdP p vc dfuel fuel (upolyToPoly x (Upoly.polyMod p lostF)) (upolyToPoly x (Upoly.polyMod p lostF)) [(Mono.one, ((2 : ℤ) : ZMod p))] deg) fun o =>
      o = some (upolyToPoly x (Upoly.polyMod p lostF), 1) := by
  haveI := Fact.mk hp
  have M := lex_ord ho
  obtain ⟨f, hf⟩ : ∃ f, f = Upoly.polyMod p lostF := ⟨_, rfl⟩
  obtain ⟨t, ht, ht'⟩ := lost_mod hp h2
  have hL : (polyMod p (lostM x)) = upolyToPoly x f := by rw [hf]; exact up_polyMod x p lostF
  obtain ⟨ok, hv⟩ := upolyToPoly_spec ho x (lost_mod_is (p := p))
  rw [← hf] at ok hv ht ⊢
  have fv : pFirstVar (upolyToPoly x f) = x := by rw [ht]; simp [upolyToPoly, powMono, pFirstVar, firstVar]
  have fd : pFirstDeg (upolyToPoly x f) = 1 := by rw [ht]; simp [upolyToPoly, powMono, pFirstDeg, firstDeg]
  have ne : upolyToPoly x f ≠ [] := by rw [ht]; simp [upolyToPoly]
  have hz : val (upolyToPoly x f) ≠ 0 := fun h => ne ((ok.val_eq_zero M).1 h)
  have hvars : (val (upolyToPoly x f)).vars = {x} := by
    refine Finset.Subset.antisymm (by rw [hv]; exact emb_vars x _) (Finset.singleton_subset_iff.2 ?_)
    have := first_mem ho ok (by rw [fv]; exact x0)
    rwa [fv] at this
  have hdeg : (val (upolyToPoly x f)).degreeOf x < 2 ^ 63 := by
    rw [hv]
    refine lt_of_le_of_lt ((emb_degreeOf x _ x).trans ((Polynomial.natDegree_map_le).trans (nat1 2 lostN))) (by norm_num)
  have hl : (lastVarDeg vc (upolyToPoly x f)).1 = x := by
    have := (lastVarDeg_spec ho ok (by rw [fv]; exact x0)).1
    rw [hvars] at this
    exact Finset.mem_singleton.1 this
  cases fuel with
  | zero => exact Post.fail
  | succ fuel =>
    unfold gcdP
    rw [if_neg (by simp [ne]), if_neg (by simp), if_neg (by rw [fv]; exact x0)]
    simp only
    rw [if_pos ⟨by rw [fv, hl], by rw [fv, hl]⟩]
    refine Post.bind (P := fun D => D = upolyToPoly x f) (Post.lift fun D hD => ?_) fun D hD => ?_
    · rw [Option.bind_eq_some_iff] at hD
      obtain ⟨qr, h1, h3⟩ := hD
      obtain ⟨q1, q2, q3, q4⟩ := quoRemP_spec ho ok ok ne hvars hvars.subset hdeg hdeg h1
      have hr : qr.2 = [] := by
        rcases q4 with h | h
        · exact h
        · by_contra hc
          have hc' : val qr.2 ≠ 0 := fun h => hc ((q1.val_eq_zero M).1 h)
          have hdv : val (upolyToPoly x f) ∣ val qr.2 := (dvd_add_right (dvd_mul_left _ (val qr.1))).1 (q2 ▸ dvd_rfl)
          have := degreeOf_le_of_dvd (v := x) hdv hc'
          omega
      rw [hr] at h3
      cases dfuel with
      | zero => simp [euclid] at h3
      | succ n =>
        rw [euclid, if_pos rfl, Option.some.injEq] at h3
        exact h3.symm
    · subst hD
      have e : upolyToPoly x f = (powMono x 1, ((2 : ℤ) : ZMod p)) :: upolyToPoly x t := by rw [ht]; rfl
      rw [e]
      simp only
      rw [if_neg (by simp [Mono.one])]
      have hm : (((powMono x 1, ((2 : ℤ) : ZMod p)) :: upolyToPoly x t).map fun u => (u.1, u.2 * ((((2 : ℤ) : ZMod p))⁻¹ * ((2 : ℤ) : ZMod p)))) = (powMono x 1, ((2 : ℤ) : ZMod p)) :: upolyToPoly x t := by
        rw [inv_mul_cancel₀ (two_ne hp h2)]
        simp
      rw [hm, ← e, fd, if_pos hd]
      exact Post.ret rfl

/-- the state of the loop that belongs to a state of the univariate one -/
def upSt (x : Var) (s : Upoly.GcdSt) : St := ⟨s.prime, upolyToPoly x s.pout, s.d, s.PP⟩

theorem lost_cons (x : Var) : lostM x = (powMono x 1, 2) :: [(powMono x 0, lostN)] := rfl

/-- a prime that divides `N` -/
theorem dvd_lostN {r : ℕ} (hr : r.Prime) (h : (r : ℤ) ∣ lostN) : r = firstPrime ∨ r = secondPrime := by
  have h' : r ∣ firstPrime * secondPrime := by rw [lostN] at h; exact_mod_cast h
  rcases (Nat.Prime.dvd_mul hr).1 h' with h | h
  · exact .inl ((Nat.prime_dvd_prime_iff_eq hr firstPrime_prime).1 h)
  · exact .inr ((Nat.prime_dvd_prime_iff_eq hr secondPrime_prime).1 h)

/-- the trial division by `q` fails: `q` becomes the accumulated image -/
theorem finish_lost (ho : VarOrd vc) {x : Var} (x0 : x ≠ 0) (prev : ℕ → Option ℕ) (dfuel gf : ℕ) (cg : PV Mono ℤ) (PP : ℤ) {pout q : UPoly ℤ} {P Q : Polynomial ℤ} {c : ℤ} (hc0 : c ≠ 0)
    (hP : Upoly.Is pout P) (hQ : Upoly.Is q Q) (P1 : P.natDegree ≤ 1) (Q1 : Q.natDegree ≤ 1) (Q0 : Q ≠ 0) (hPQ : P = Q * Polynomial.C c) (hnd : ¬ Q ∣ (Polynomial.C 2 * Polynomial.X + Polynomial.C lostN))
    (hv : pFirstVar (upolyToPoly x pout) = x)
    (hc : Post (contWith (gcdZ vc false prev dfuel gf) (upolyToPoly x pout)) fun r => r = [(Mono.one, c)]) :
    Post (finish vc false (gcdZ vc false prev dfuel gf) dfuel (lostM x) (lostM x) cg (upolyToPoly x pout) PP) fun o => o = .inr (upolyToPoly x q) := by
  have M := lex_ord ho
  have hS := small_x x0
  have inP := up_in ho x hP P1
  have inQ := up_in ho x hQ Q1
  have inC : In vc {x} 1 [(Mono.one, c)] := up_in ho x (c_is hc0) (by simp)
  have inF : In vc {x} 1 (lostM x) := up_in ho x lostF_is (nat1 2 lostN)
  have vP := (upolyToPoly_spec ho x hP).2
  have vQ := (upolyToPoly_spec ho x hQ).2
  have vC : val [(Mono.one, c)] = emb x (Polynomial.C c) := (upolyToPoly_spec ho x (c_is hc0)).2
  have vF : val (lostM x) = emb x (Polynomial.C 2 * Polynomial.X + Polynomial.C lostN) := (upolyToPoly_spec ho x lostF_is).2
  have q0 : upolyToPoly x q ≠ [] := fun h => by
    rw [h, val_nil] at vQ
    exact Q0 (emb_injective x (by rw [← vQ, map_zero]))
  unfold finish
  rw [if_pos (by rw [hv]; simp [lostM, lostF, upolyToPoly, powMono, pFirstVar, firstVar])]
  refine hc.bind fun c' hc' => ?_
  subst hc'
  refine (Post.lift fun r hr => quoZ_exact ho hS inP inC (by simp) inQ.ok (by rw [vP, vQ, vC, hPQ, map_mul]) hr).bind fun r hr => ?_
  rw [hr]
  refine (Post.lift fun r1 hr1 => quoRemZ_test ho hS inF inQ.ok (inQ.deg63 M hS) q0 hr1).bind fun r1 hr1 => ?_
  have h1 : r1.2 ≠ [] := fun h => hnd (by
    have := hr1.1 h
    rw [vQ, vF] at this
    have := map_dvd (ret (R := ℤ)) this
    rwa [ret_emb, ret_emb] at this)
  rw [if_neg h1]
  refine (Post.ret (Q := fun r2 => r2 = r1) rfl).bind fun r2 hr2 => ?_
  rw [hr2, if_neg h1, if_neg (by simp)]
  exact Post.ret rfl

/-- one round of the loop at an odd prime -/
theorem loop_step (ho : VarOrd vc) {x : Var} (x0 : x ≠ 0) {prev : ℕ → Option ℕ} (gcd : PV Mono ℤ → PV Mono ℤ → Run (PV Mono ℤ)) (dfuel : ℕ) (cg : PV Mono ℤ) (fuel : ℕ) (s : Upoly.GcdSt)
    (hp : s.prime.Prime) (h2 : s.prime ≠ 2) (hd : 1 ≤ s.d) {Q : PV Mono ℤ → Prop}
    (k1 : 1 < s.d → Post (nextPrime prev (primeLoop vc false prev gcd dfuel (lostM x) (lostM x) cg [(Mono.one, 2)] fuel)
      (upSt x { s with pout := Upoly.liftFirst s.prime (Upoly.polyMod s.prime lostF), d := 1, PP := s.prime })) Q)
    (k2 : ¬ 1 < s.d → Upoly.crtStep s.prime s.PP s.pout (Upoly.polyMod s.prime lostF) ≠ s.pout →
      Post (nextPrime prev (primeLoop vc false prev gcd dfuel (lostM x) (lostM x) cg [(Mono.one, 2)] fuel)
        (upSt x { s with pout := Upoly.crtStep s.prime s.PP s.pout (Upoly.polyMod s.prime lostF), PP := s.PP * s.prime })) Q)
    (k3 : ¬ 1 < s.d → Upoly.crtStep s.prime s.PP s.pout (Upoly.polyMod s.prime lostF) = s.pout →
      ∃ q, Post (finish vc false gcd dfuel (lostM x) (lostM x) cg (upolyToPoly x s.pout) (s.PP * s.prime)) (fun o => o = .inr (upolyToPoly x q)) ∧
        Post (nextPrime prev (primeLoop vc false prev gcd dfuel (lostM x) (lostM x) cg [(Mono.one, 2)] fuel) (upSt x { s with pout := q, PP := s.PP * s.prime })) Q) :
    Post (primeLoop vc false prev gcd dfuel (lostM x) (lostM x) cg [(Mono.one, 2)] (fuel + 1) (upSt x s)) Q := by
  obtain ⟨pr, po, d, PP⟩ := s
  dsimp only [upSt] at hp h2 hd k1 k2 k3 ⊢
  rw [lost_cons, primeLoop, ← lost_cons]
  dsimp only
  have hns : ¬ Int.tmod 2 (pr : ℤ) = 0 := by
    rw [← Int.dvd_iff_tmod_eq_zero]
    intro h
    have h' : pr ∣ 2 := by exact_mod_cast h
    exact h2 ((Nat.prime_dvd_prime_iff_eq hp Nat.prime_two).1 h')
  haveI := Fact.mk hp
  rw [if_neg (by simpa using hns), dif_pos hp]
  refine Post.bind (P := fun o => o = some (upolyToPoly x (Upoly.polyMod pr lostF), 1)) ?_ fun o ho' => ?_
  · have := lost_image ho x0 hp h2 dfuel dfuel (deg := d) hd
    have e : polyMod pr ([(Mono.one, 2)] : PV Mono ℤ) = [(Mono.one, ((2 : ℤ) : ZMod pr))] := by
      unfold polyMod
      rw [List.filterMap_cons_some (b := (Mono.one, ((2 : ℤ) : ZMod pr))) (by rw [if_pos (two_ne hp h2)])]
      rfl
    rw [e, lostM, up_polyMod]
    exact this
  subst ho'
  simp only
  rw [up_crtStep ho, up_liftFirst]
  refine Post.ite (fun h => k1 h) fun h => Post.ite (fun h3 => ?_) fun h3 => k2 h fun h' => h3 (by rw [h'])
  have h3' := up_inj x h3
  rw [h3']
  obtain ⟨q, q1, q2⟩ := k3 h h3'
  refine q1.bind fun o ho' => ?_
  rw [ho']
  exact q2

/-- from a state with the lost candidate the loop never returns -/
theorem loop_lost (ho : VarOrd vc) {x : Var} (x0 : x ≠ 0) {prev : ℕ → Option ℕ} (hprev : PrevOK prev) (dfuel gf : ℕ) (cg : PV Mono ℤ) : ∀ (fuel : ℕ) (s : Upoly.GcdSt),
    s.prime < secondPrime → s.prime.Prime → (∀ q : ℕ, q.Prime → (q : ℤ) ∣ s.PP → s.prime < q) → Lost s →
    Post (primeLoop vc false prev (gcdZ vc false prev dfuel gf) dfuel (lostM x) (lostM x) cg [(Mono.one, 2)] fuel (upSt x s)) fun _ => False := by
  intro fuel
  induction fuel with
  | zero => intro s _ _ _ _; exact Post.fail
  | succ fuel ih =>
    intro s hlt hp hq hs
    have next : ∀ s0 : Upoly.GcdSt, s0.prime = s.prime → Lost s0 →
        Post (nextPrime prev (primeLoop vc false prev (gcdZ vc false prev dfuel gf) dfuel (lostM x) (lostM x) cg [(Mono.one, 2)] fuel) (upSt x s0)) fun _ => False := by
      intro s0 e2 e3
      unfold nextPrime
      rw [show (upSt x s0).prime = s.prime from e2]
      cases e : prev s.prime with
      | none => exact Post.fail
      | some q =>
        have hq := hprev _ _ e
        obtain ⟨d1, M, m1, m2, m3, m4, rest⟩ := e3
        refine ih { s0 with prime := q } (hq.1.trans hlt) hq.2 (fun r hr hd => ?_)
          ⟨d1, M, m1, m2, m3, fun r hr hd => by have := m4 r hr hd; rw [e2] at this; exact hq.1.le.trans this, rest⟩
        have hd' : (r : ℤ) ∣ s0.PP := hd
        rw [m2] at hd'
        rcases (Nat.prime_iff_prime_int.1 hr).dvd_or_dvd hd' with h | h
        · rcases dvd_lostN hr h with h | h
          · rw [h]; exact (hq.1.trans hlt).trans (by decide)
          · rw [h]; exact hq.1.trans hlt
        · have := m4 r hr h
          rw [e2] at this
          exact hq.1.trans_le this
    by_cases h2 : s.prime = 2
    · rw [lost_cons, primeLoop, ← lost_cons]
      exact Post.ite (fun _ => next s rfl hs) fun h => absurd (.inl (by show Int.tmod 2 (s.prime : ℤ) = 0; rw [h2]; rfl)) h
    haveI := Fact.mk hp
    obtain ⟨key, fix⟩ := lost_crt hp h2 hq hs lost_mod_is
    have hd := hs.1
    have hd' : ¬ 1 < s.d := by rw [hd]; norm_num
    refine loop_step ho x0 _ dfuel cg fuel s hp h2 (by rw [hd]) (fun h => absurd h hd') (fun _ _ => next _ rfl key) fun _ h3 => ?_
    rw [h3] at key
    obtain ⟨a, ha0, hlist, hcopa, hnd⟩ := fix h3
    have hN := lostN_pos
    have p1 : Upoly.Is s.pout (Polynomial.C a * Polynomial.X + Polynomial.C lostN) := by rw [hlist]; exact lin_is ha0 (by omega)
    have hT0 : (Polynomial.C a * Polynomial.X + Polynomial.C lostN : Polynomial ℤ) ≠ 0 := fun h => by
      have := congrArg (fun q => q.coeff 1) h
      simp only [lin_coeff] at this
      exact ha0 (by simpa using this)
    refine ⟨s.pout, finish_lost ho x0 prev dfuel gf cg _ (c := 1) (by norm_num) p1 p1 (nat1 a lostN) (nat1 a lostN) hT0 (by simp) hnd ?_ ?_, next _ rfl key⟩
    · rw [hlist]; simp [upolyToPoly, powMono, pFirstVar, firstVar]
    · rw [hlist]
      refine (cont_two x0 false prev dfuel gf a lostN).mono fun c hc => ?_
      rw [hc, Int.isCoprime_iff_gcd_eq_one.1 hcopa]; rfl

/-- the whole loop -/
theorem loop_start (ho : VarOrd vc) {x : Var} (x0 : x ≠ 0) {prev : ℕ → Option ℕ} (hprev : PrevOK prev) (h2 : prev firstPrime = some secondPrime) (dfuel gf : ℕ) (cg : PV Mono ℤ) (fuel : ℕ) :
    Post (primeLoop vc false prev (gcdZ vc false prev dfuel gf) dfuel (lostM x) (lostM x) cg [(Mono.one, 2)] fuel ⟨firstPrime, [], 2 ^ 63 - 1, 0⟩) fun _ => False := by
  cases fuel with
  | zero => exact Post.fail
  | succ fuel =>
    haveI := Fact.mk firstPrime_prime
    haveI := Fact.mk secondPrime_prime
    refine loop_step ho x0 _ dfuel cg fuel ⟨firstPrime, [], 2 ^ 63 - 1, 0⟩ firstPrime_prime (by decide) (by norm_num) (fun _ => ?_) (fun h => absurd (by norm_num) h) (fun h => absurd (by norm_num) h)
    rw [Upoly.lost_first lost_mod_is]
    unfold nextPrime
    dsimp only [upSt]
    rw [h2]
    cases fuel with
    | zero => exact Post.fail
    | succ fuel =>
      refine loop_step ho x0 _ dfuel cg fuel ⟨secondPrime, [(1, 2)], 1, firstPrime⟩ secondPrime_prime (by decide) (by norm_num) (fun h => absurd h (by norm_num))
        (fun _ h => absurd (Upoly.lost_second lost_mod_is) h) fun _ _ => ⟨[(1, 1)], ?_, ?_⟩
      · have hN := lostN_pos
        have isX : Upoly.Is ([(1, 1)] : UPoly ℤ) Polynomial.X :=
          ⟨Upoly.canon_cons.2 ⟨by simp, by norm_num, Upoly.canon_nil⟩, by rw [Upoly.toPoly_cons, Upoly.toPoly_nil, add_zero]; rfl⟩
        have is2 : Upoly.Is ([(1, 2)] : UPoly ℤ) (Polynomial.X * Polynomial.C 2) :=
          ⟨Upoly.canon_cons.2 ⟨by simp, by norm_num, Upoly.canon_nil⟩, by rw [Upoly.toPoly_cons, Upoly.toPoly_nil, add_zero, ← Polynomial.C_mul_X_pow_eq_monomial, pow_one, mul_comm]⟩
        refine finish_lost ho x0 prev dfuel gf cg _ (c := 2) (by norm_num) is2 isX ?_ ?_ Polynomial.X_ne_zero rfl ?_ ?_ ?_
        · exact (Polynomial.natDegree_mul_C_le _ _).trans Polynomial.natDegree_X_le
        · exact Polynomial.natDegree_X_le
        · rw [Polynomial.X_dvd_iff, lin_coeff]
          norm_num
          omega
        · simp [upolyToPoly, powMono, pFirstVar, firstVar]
        · have e : contWith (gcdZ vc false prev dfuel gf) (upolyToPoly x [(1, 2)]) = Run.ret [(Mono.one, 2)] := by
            simp [contWith, contLoop, upolyToPoly, powMono, pFirstVar, firstVar, pFirstDeg, firstDeg, inBlock, stripMain, mkMono, sumDeg, Mono.one]
          rw [e]
          exact Post.ret rfl
      · unfold nextPrime
        dsimp only [upSt]
        cases e : prev secondPrime with
        | none => exact Post.fail
        | some q =>
          have hq := hprev _ _ e
          refine loop_lost ho x0 hprev dfuel gf cg fuel ⟨q, [(1, 1)], 1, firstPrime * secondPrime⟩ hq.1 hq.2 (fun r hr hd => ?_) (Upoly.lost_begin q hq.1)
          rcases dvd_lostN hr hd with h | h
          · rw [h]; exact hq.1.trans (by decide)
          · rw [h]; exact hq.1

/-- `polynomial_GCD(F, F)` for `F = 2x + N` -/
theorem lost_gcdZ (ho : VarOrd vc) {x : Var} (x0 : x ≠ 0) {prev : ℕ → Option ℕ} (hprev : PrevOK prev) (h2 : prev firstPrime = some secondPrime) (dfuel fuel : ℕ) (draws : List ℕ) :
    gcdZ vc false prev dfuel fuel (lostM x) (lostM x) draws = none := by
  have hS := small_x x0
  have hN := lostN_pos
  have inF : In vc {x} 1 (lostM x) := up_in ho x lostF_is (nat1 2 lostN)
  have in1 : In vc {x} 1 [(Mono.one, (1 : ℤ))] := up_in ho x (c_is one_ne_zero) (by simp)
  have v1 : val [(Mono.one, (1 : ℤ))] = 1 := by
    have := (upolyToPoly_spec ho x (c_is (one_ne_zero (α := ℤ)))).2
    rw [Polynomial.C_1, map_one] at this
    exact this
  have fv : pFirstVar (lostM x) = x := by simp [lostM, lostF, upolyToPoly, powMono, pFirstVar, firstVar]
  have key : Post (gcdZ vc false prev dfuel fuel (lostM x) (lostM x)) fun _ => False := by
    cases fuel with
    | zero => exact Post.fail
    | succ fuel =>
      unfold gcdZ
      rw [if_neg (by simp [lost_cons]), if_neg (by simp [lost_cons]), if_neg (by simp [lost_cons])]
      refine Post.bind (P := fun e => e = .inr (lostM x, lostM x)) ?_ fun e he => ?_
      · cases dfuel with
        | zero => exact Post.fail
        | succ n =>
          rw [equalize, if_pos ⟨rfl, by rw [fv]; exact x0⟩]
          exact Post.ret rfl
      subst he
      have hcont := cont_two (vc := vc) x0 false prev dfuel fuel 2 lostN
      rw [Int.isCoprime_iff_gcd_eq_one.1 Upoly.lostN_odd] at hcont
      refine hcont.bind fun Fc hFc => hcont.bind fun Gc hGc => ?_
      subst hFc hGc
      refine (gcd_const false prev dfuel fuel _ _).bind fun cg hcg => ?_
      have hq : ∀ r, quoZ vc dfuel (lostM x) [(Mono.one, ((1 : ℕ) : ℤ))] = some r → r = lostM x := fun r hr =>
        quoZ_exact ho hS inF in1 (by simp) inF.ok (by rw [v1, mul_one]) hr
      refine (Post.lift hq).bind fun F1 h1 => (Post.lift hq).bind fun G1 h1' => ?_
      subst h1 h1'
      have el : leadLex (lostM x) = [(Mono.one, 2)] := by
        simp [leadLex, lostM, lostF, upolyToPoly, powMono, pFirstVar, firstVar, pFirstDeg, firstDeg, mkMono, sumDeg, Mono.one]
      rw [el]
      refine (gcd_const false prev dfuel fuel 2 2).bind fun lg hlg => ?_
      subst hlg
      exact loop_start ho x0 hprev h2 dfuel fuel cg dfuel
  cases e : gcdZ vc false prev dfuel fuel (lostM x) (lostM x) draws with
  | none => rfl
  | some r => exact (key draws r e).elim

end Mgcd
end CLPoly
