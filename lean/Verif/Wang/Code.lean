import Verif.Wang.LiftSub
import Verif.Wang.LiftLead

/-! # The multivariate factorization with its own lifting -/

namespace CLPoly
namespace Wang
open Mono Mgcd Run Upoly Factor MvPolynomial

/-- the environment with the lifting of the code; `facL` factors the leading coefficients -/
def codeEnv (E : Env) (chk : Bool) (N : ℕ) (facL : PV Mono ℤ → Run (ℤ × List (PV Mono ℤ × ℕ))) : Env := { E with lift := Mtshl.codeLift chk E.vc E.fuel N facL }

/-- polynomial_factorize.hh 22–126 `factorize(polynomial_<ZZ,lex_>)`: `factorN` with `__wang_leading_coeff` and `__mtshl_lift` (polynomial_factorize_wang.hh 306–1182, 1312–1523).  The leading coefficients are factored by the
same function, in the selection of the point and in `__wang_leading_coeff`; the number bounds the depth of this recursion.  `chk = false` (and `E.strict = false`) is the code, see Wang/LiftDefs.lean; `E.lift` is not used. -/
def facCode (E : Env) (chk : Bool) (N : ℕ) : ℕ → PV Mono ℤ → Run (ℤ × List (PV Mono ℤ × ℕ))
  | 0, _ => fail
  | n + 1, F => facLex (codeEnv E chk N (facCode E chk N n)) (factorMulti (codeEnv E chk N (facCode E chk N n)) (facCode E chk N n)) F

/-- polynomial_factorize.hh 132–154 `factorize(polynomial_<ZZ,comp>)` -/
def facCodeAny (E : Env) (chk : Bool) (N n : ℕ) (vc' : Var → Var → Bool) (mc' : Mono → Mono → Bool) (F : PV Mono ℤ) : Run (ℤ × List (PV Mono ℤ × ℕ)) :=
  bind (facCode E chk N n (Mgcd.toLex E.vc F)) fun r => ret (r.1, r.2.map fun x => (polyConvert vc' mc' id x.1, x.2))

section
variable {E : Env} {N : ℕ}

theorem codeEnv_code (chk : Bool) (facL facL' : PV Mono ℤ → Run (ℤ × List (PV Mono ℤ × ℕ))) : codeEnv E.code chk N facL' = (codeEnv E true N facL).codeL (Mtshl.codeLift chk E.vc E.fuel N facL') := rfl

/-- every run with the tests is a run of the code -/
theorem facCode_code (N' : ℕ) : ∀ (n : ℕ) (F : PV Mono ℤ), Sub (facCode E true N n F) (facCode E.code false N' n F)
  | 0, _ => Sub.refl _
  | n + 1, F => by
    unfold facCode
    rw [codeEnv_code (N := N') false (facCode E true N n)]
    exact facLex_code (fun L => factorMulti_code (fun g us α x c p => Mtshl.codeLift_sub (facCode_code N' n) N N' g us α x c p) (facCode_code N' n) L) F

theorem facCodeAny_code (N' n : ℕ) (vc' : Var → Var → Bool) (mc' : Mono → Mono → Bool) (F : PV Mono ℤ) : Sub (facCodeAny E true N n vc' mc' F) (facCodeAny E.code false N' n vc' mc' F) :=
  Sub.bind (facCode_code N' n _) fun _ => Sub.refl _

end

section
variable {vc : Var → Var → Bool} {V : Finset Var} {N : ℕ} (ho : VarOrd vc) {E : Env} (hE : E.vc = vc) (hS : Mgcd.Small V N) {ex : Prop} (hU : UniOK ex N E.uni) (hU' : UniOK False N E.uni) (hI : UniIrr N E.uni) (hprev : PrevOK E.prev)
  (hT : Tame E.strict V N E.prev) (hsort : ∀ l, (E.sort l).Perm l)

theorem codeEnv_fits {facL : PV Mono ℤ → Run (ℤ × List (PV Mono ℤ × ℕ))} (ho : VarOrd vc) (hE : E.vc = vc) (hfac : ∀ L, In vc V N L → Post (facL L) fun r => FacX False vc (lexGt vc) (val L) r.1 r.2) : LiftFits (codeEnv E true N facL) vc V N :=
  fun _ us α x c p hg => by
    subst hE
    exact (Mtshl.codeLift_spec ho hfac hg us α x c p).mono fun _ h => h.1

theorem codeEnv_img {facL : PV Mono ℤ → Run (ℤ × List (PV Mono ℤ × ℕ))} (ho : VarOrd vc) (hE : E.vc = vc) (hfac : ∀ L, In vc V N L → Post (facL L) fun r => FacX False vc (lexGt vc) (val L) r.1 r.2) : LiftImg (codeEnv E true N facL) vc V N :=
  fun _ us α x c p hg _ _ _ _ _ _ => by
    subst hE
    exact (Mtshl.codeLift_spec ho hfac hg us α x c p).mono fun _ h => h.2

include ho hE hS hprev hT hsort in
theorem facStep_spec (hU : UniOK ex N E.uni) {facL : PV Mono ℤ → Run (ℤ × List (PV Mono ℤ × ℕ))} (hL : LiftFits E vc V N) {F : PV Mono ℤ} (hF : In vc V N F) :
    Post (facLex E (factorMulti E facL) F) fun r => FacX ex vc (lexGt vc) (val F) r.1 r.2 ∧ (1 < (val F).vars.card → MFac ex vc (val F) r.1 r.2) := by
  have M := lex_ord ho
  have hm : 1 < (val F).vars.card → Post (factorMulti E facL F) fun r => MFac ex vc (val F) r.1 r.2 := fun h =>
    factorMulti_spec ho hE hS hU hprev hT hL hsort hF fun e => by rw [e, val_nil] at h; simp at h
  refine (facLex_spec ho hS hU hF fun h => (hm h).mono fun r hr => hr.fac).and ?_
  match F, hF, hm with
  | [], _, _ => exact Post.ret fun h => by rw [val_nil] at h; simp at h
  | t :: F', hF, hm =>
    obtain ⟨F, e⟩ : ∃ F, F = t :: F' := ⟨_, rfl⟩
    unfold facLex
    dsimp only
    rw [← e] at hF hm ⊢
    refine Post.ite (fun hn => Post.ret fun h => ?_) fun hn => Post.ite (fun h1 => ?_) fun h1 s r hr h => ?_
    · rw [(number_of_vars ho hF.ok).1 hn] at h; simp at h
    · rw [polyVars_eq M hF.ok] at h1; exact (hm h1).mono fun r hr _ => hr
    · rw [polyVars_eq M hF.ok] at h1; exact absurd h h1

include ho hE hS hU' hprev hT hsort in
theorem facCode_fac : ∀ (n : ℕ) {F : PV Mono ℤ}, In vc V N F → Post (facCode E true N n F) fun r => FacX False vc (lexGt vc) (val F) r.1 r.2
  | 0, _, _ => Post.fail
  | n + 1, F, hF => (facStep_spec (E := codeEnv E true N (facCode E true N n)) ho hE hS hprev hT hsort hU' (codeEnv_fits ho hE fun L hL => facCode_fac n hL) hF).mono fun r hr => hr.1

include ho hE hS hU hU' hprev hT hsort in
/-- `factorize(polynomial_<ZZ,lex_>)` -/
theorem facCode_spec (n : ℕ) {F : PV Mono ℤ} (hF : In vc V N F) : Post (facCode E true N n F) fun r => FacX ex vc (lexGt vc) (val F) r.1 r.2 ∧ (1 < (val F).vars.card → MFac ex vc (val F) r.1 r.2) := by
  match n with
  | 0 => exact Post.fail
  | n + 1 =>
    exact facStep_spec (E := codeEnv E true N (facCode E true N n)) ho hE hS hprev hT hsort hU (codeEnv_fits ho hE fun L hL => facCode_fac ho hE hS hU' hprev hT hsort n hL) hF

include ho hE hS hU' hI hprev hT hsort in
theorem facCode_irr (n : ℕ) {F : PV Mono ℤ} (hF : In vc V N F) : Post (facCode E true N n F) fun r => Irr1 r.2 := by
  match n with
  | 0 => exact Post.fail
  | n + 1 =>
    have hfac := fun L (hL : In vc V N L) => facCode_fac ho hE hS hU' hprev hT hsort n hL
    exact facLex_irr (E := codeEnv E true N (facCode E true N n)) ho hS hU' hI hF fun h =>
      factorMulti_irr (E := codeEnv E true N (facCode E true N n)) ho hE hS hprev hT hU' hI (codeEnv_fits ho hE hfac) hfac hsort hF fun e => by rw [e, val_nil] at h; simp at h

include ho hE hS hU' hI hprev hT hsort in
theorem facCode_all (n : ℕ) {F : PV Mono ℤ} (hF : In vc V N F) (hal : AlikeFactors (val F)) : Post (facCode E true N n F) fun r => IrrAll r.2 := by
  match n with
  | 0 => exact Post.fail
  | n + 1 =>
    have hfac := fun L (hL : In vc V N L) => facCode_fac ho hE hS hU' hprev hT hsort n hL
    exact facLex_all (E := codeEnv E true N (facCode E true N n)) ho hS hU' hI hF fun h =>
      factorMulti_all (E := codeEnv E true N (facCode E true N n)) ho hE hS hprev hT hU' hI (codeEnv_fits ho hE hfac) (codeEnv_img ho hE hfac) hfac hsort hF (fun e => by rw [e, val_nil] at h; simp at h) hal

variable {vc' : Var → Var → Bool} {mc' : Mono → Mono → Bool} (M : MonoOrd vc' mc')

include ho M hE hS hU hU' hprev hT hsort in
/-- `factorize(polynomial_<ZZ,comp>)` -/
theorem facCodeAny_spec (n : ℕ) {F : PV Mono ℤ} (hF : PolyOK vc' mc' F) (hv : (val F).vars ⊆ V) (hd : ∀ w, (val F).degreeOf w ≤ N) : Post (facCodeAny E true N n vc' mc' F) fun r =>
    FacX ex vc' mc' (val F) r.1 r.2 ∧ (1 < (val F).vars.card → Cop r.2) := by
  obtain ⟨a1, a2⟩ := toLex_in ho M hF hv hd
  unfold facCodeAny
  rw [hE]
  refine (facCode_spec ho hE hS hU hU' hprev hT hsort n a1).bind fun r hr => Post.ret ?_
  rw [a2] at hr
  refine ⟨facX_convert ho M hr.1, fun hc => ?_⟩
  have hm := hr.2 hc
  have key : ∀ x ∈ r.2, val (polyConvert vc' mc' id x.1) = val x.1 := fun x hx => (convert_val (lex_ord ho) M (hr.1.ok x hx)).2
  refine ⟨fun y hy => ?_, ?_⟩
  · obtain ⟨x, hx, rfl⟩ := List.mem_map.1 hy
    dsimp only
    rw [key x hx]; exact hm.cop.sqf x hx
  · rw [List.pairwise_map]
    refine hm.cop.cop.imp_of_mem fun {a b} ha hb hab => ?_
    dsimp only
    rw [key a ha, key b hb]; exact hab

include ho M hE hS hU' hI hprev hT hsort in
theorem facCodeAny_irr (n : ℕ) {F : PV Mono ℤ} (hF : PolyOK vc' mc' F) (hv : (val F).vars ⊆ V) (hd : ∀ w, (val F).degreeOf w ≤ N) :
    Post (facCodeAny E true N n vc' mc' F) fun r => Irr1 r.2 ∧ (AlikeFactors (val F) → IrrAll r.2) := by
  obtain ⟨a1, a2⟩ := toLex_in ho M hF hv hd
  unfold facCodeAny
  rw [hE]
  intro s r hr
  obtain ⟨x, hx, e⟩ := Option.bind_eq_some_iff.1 hr
  cases e
  have h1 := facCode_fac ho hE hS hU' hprev hT hsort n a1 _ _ hx
  have h2 := facCode_irr ho hE hS hU' hI hprev hT hsort n a1 _ _ hx
  refine ⟨fun y hy => ?_, fun hal y hy => ?_⟩
  · obtain ⟨z, hz, rfl⟩ := List.map_eq_singleton_iff.1 hy
    dsimp only
    rw [(convert_val (lex_ord ho) M (h1.ok z (by simp [hz]))).2]
    exact h2 z hz
  · have h3 := facCode_all ho hE hS hU' hI hprev hT hsort n a1 (by rw [a2]; exact hal) _ _ hx
    obtain ⟨z, hz, rfl⟩ := List.mem_map.1 hy
    dsimp only
    rw [(convert_val (lex_ord ho) M (h1.ok z hz)).2]
    exact h3 z hz

end

end Wang
end CLPoly
