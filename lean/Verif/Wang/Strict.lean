import Verif.Wang.Irr
import Verif.Gcd.SqfStrict

/-! # Every run with the strict variant of the gcd is a run of the code; other monomial orders -/

namespace CLPoly
namespace Wang
open Mono Mgcd Run Upoly Factor MvPolynomial

/-- the same environment with the gcd of the code -/
def Env.code (E : Env) : Env := { E with strict := false }

/-- … and another function for the lifting -/
def Env.codeL (E : Env) (lf : PV Mono ℤ → List (UPoly ℤ) → List (Var × ℤ) → Var → ℤ → ℕ → Run (List (PV Mono ℤ))) : Env := { E with strict := false, lift := lf }

section
variable {E : Env} {facL facL' : PV Mono ℤ → Run (ℤ × List (PV Mono ℤ × ℕ))} {lf : PV Mono ℤ → List (UPoly ℤ) → List (Var × ℤ) → Var → ℤ → ℕ → Run (List (PV Mono ℤ))}
  (hl : ∀ g us α x c p, Sub (E.lift g us α x c p) (lf g us α x c p))

theorem normFactor_code (h : PV Mono ℤ) : Sub (normFactor E h) (normFactor (E.codeL lf) h) := Sub.bind (pp_code E.strict E.prev E.fuel h) fun _ => Sub.refl _

theorem trySubset_code (grem : PV Mono ℤ) : ∀ l, Sub (trySubset E grem l) (trySubset (E.codeL lf) grem l)
  | [] => Sub.refl _
  | h :: l => by
    unfold trySubset
    exact Sub.bind (m' := prodSel E.vc h l) (Sub.refl _) fun _ => Sub.bind (normFactor_code _) fun _ => Sub.ite (Sub.refl _) (Sub.bind (Sub.refl _) fun _ => Sub.ite (Sub.bind (normFactor_code _) fun _ => Sub.refl _) (Sub.refl _))

theorem combLoop_code (grem : PV Mono ℤ) (T : List (PV Mono ℤ)) : ∀ fuel idx, Sub (combLoop E grem T fuel idx) (combLoop (E.codeL lf) grem T fuel idx) := by
  intro fuel
  induction fuel with
  | zero => intro _; exact Sub.refl _
  | succ n ih =>
    intro idx
    unfold combLoop
    refine Sub.bind (trySubset_code _ _) fun o => ?_
    match o with
    | some x => exact Sub.refl _
    | none =>
      dsimp only
      cases nextComb T.length idx with
      | none => exact Sub.refl _
      | some i => exact ih i

theorem recLoop_code : ∀ fuel s grem T ver, Sub (recLoop E fuel s grem T ver) (recLoop (E.codeL lf) fuel s grem T ver) := by
  intro fuel
  induction fuel with
  | zero => intro _ _ _ _; exact Sub.refl _
  | succ n ih =>
    intro s grem T ver
    unfold recLoop
    refine Sub.ite (Sub.bind (combLoop_code _ _ _ _) fun o => ?_) (Sub.refl _)
    match o with
    | some x => exact ih _ _ _ _
    | none => exact ih _ _ _ _

theorem runMap_sub {α β : Type} {f f' : α → Run β} (h : ∀ a, Sub (f a) (f' a)) : ∀ l, Sub (Charset.runMap f l) (Charset.runMap f' l)
  | [] => Sub.refl _
  | a :: l => Sub.bind (h a) fun _ => Sub.bind (runMap_sub h l) fun _ => Sub.refl _

theorem tryCands_code (g : PV Mono ℤ) (cands : List (PV Mono ℤ)) : Sub (tryCands E g cands) (tryCands (E.codeL lf) g cands) :=
  Sub.bind (runMap_sub normFactor_code _) fun _ => Sub.bind (recLoop_code _ _ _ _ _) fun _ =>
    Sub.ite (Sub.bind (Sub.ite (Sub.bind (normFactor_code _) fun _ => Sub.refl _) (Sub.refl _)) fun _ => Sub.refl _) (Sub.refl _)

theorem selectEval_code (hf : ∀ L, Sub (facL L) (facL' L)) (f : PV Mono ℤ) (x : Var) (skip p : ℕ) : Sub (selectEval E facL f x skip p) (selectEval (E.codeL lf) facL' f x skip p) := by
  unfold selectEval
  dsimp only
  rw [show (E.codeL lf).vc = E.vc from rfl]
  exact Sub.bind (Sub.ite (Sub.refl _) (Sub.bind (hf _) fun _ => Sub.refl _)) fun _ => Sub.refl _

include hl in
theorem batch_code (hf : ∀ L, Sub (facL L) (facL' L)) (g : PV Mono ℤ) (x : Var) (p : ℕ) : ∀ n skip, Sub (batch E facL g x p n skip) (batch (E.codeL lf) facL' g x p n skip) := by
  intro n
  induction n with
  | zero => intro _; exact Sub.refl _
  | succ n ih =>
    intro skip
    unfold batch
    refine Sub.bind (selectEval_code hf _ _ _ _) fun α => Sub.bind (Sub.refl _) fun u => Sub.ite (Sub.refl _) (Sub.bind (hl _ _ _ _ _ _) fun c => Sub.ite (ih _) (Sub.bind (tryCands_code _ _) fun r => ?_))
    match r with
    | some ver => exact Sub.refl _
    | none => exact ih _

include hl in
theorem round_code (hf : ∀ L, Sub (facL L) (facL' L)) (g : PV Mono ℤ) : ∀ vs, Sub (round E facL g vs) (round (E.codeL lf) facL' g vs) := by
  intro vs
  induction vs with
  | nil => exact Sub.refl _
  | cons s vs ih =>
    unfold round
    refine Sub.ite (Sub.bind ih fun _ => Sub.refl _) (Sub.bind (Sub.refl _) fun p => Sub.bind (batch_code hl hf _ _ _ _ _) fun b => ?_)
    match b with
    | .found l => exact Sub.refl _
    | .dead => exact Sub.bind ih fun _ => Sub.refl _
    | .out => exact Sub.bind ih fun _ => Sub.refl _

include hl in
theorem rounds_code (hf : ∀ L, Sub (facL L) (facL' L)) (g : PV Mono ℤ) : ∀ n vs, Sub (rounds E facL g n vs) (rounds (E.codeL lf) facL' g n vs) := by
  intro n
  induction n with
  | zero => intro _; exact Sub.refl _
  | succ n ih =>
    intro vs
    unfold rounds
    refine Sub.bind (round_code hl hf _ _) fun r => ?_
    match r with
    | .inl ver => exact Sub.refl _
    | .inr vs' => exact Sub.ite (Sub.refl _) (ih _)

include hl in
theorem wangCore_code (hf : ∀ L, Sub (facL L) (facL' L)) (g : PV Mono ℤ) : Sub (wangCore E facL g) (wangCore (E.codeL lf) facL' g) := Sub.ite (Sub.refl _) (rounds_code hl hf _ _ _)

theorem facLex_code {multi multi' : PV Mono ℤ → Run (ℤ × List (PV Mono ℤ × ℕ))} (hm : ∀ L, Sub (multi L) (multi' L)) (F : PV Mono ℤ) : Sub (facLex E multi F) (facLex (E.codeL lf) multi' F) := by
  unfold facLex
  cases F with
  | nil => exact Sub.refl _
  | cons t F => exact Sub.ite (Sub.refl _) (Sub.ite (hm _) (Sub.refl _))

theorem addUni_code (mk : ℕ) (g : PV Mono ℤ) (s : ℤ × List (PV Mono ℤ × ℕ)) : Sub (addUni E mk g s) (addUni (E.codeL lf) mk g s) := Sub.bind (facLex_code (fun _ => Sub.refl _) _) fun _ => Sub.refl _

include hl in
theorem addPart_code (hf : ∀ L, Sub (facL L) (facL' L)) (g : PV Mono ℤ) (mk : ℕ) (s : ℤ × List (PV Mono ℤ × ℕ)) : Sub (addPart E facL g mk s) (addPart (E.codeL lf) facL' g mk s) :=
  Sub.ite (Sub.refl _) (Sub.ite (addUni_code _ _ _) (Sub.ite (addUni_code _ _ _) (Sub.bind (wangCore_code hl hf _) fun _ => Sub.refl _)))

include hl in
theorem addParts_code (hf : ∀ L, Sub (facL L) (facL' L)) : ∀ l s, Sub (addParts E facL l s) (addParts (E.codeL lf) facL' l s)
  | [], _ => Sub.refl _
  | _ :: l, _ => Sub.bind (addPart_code hl hf _ _ _) fun _ => addParts_code hf l _

include hl in
theorem factorMulti_code (hf : ∀ L, Sub (facL L) (facL' L)) (F : PV Mono ℤ) : Sub (factorMulti E facL F) (factorMulti (E.codeL lf) facL' F) :=
  Sub.bind (squarefreeFactorize_sub (gcdZ_code E.strict E.prev E.fuel E.fuel) _ _ _) fun _ => Sub.bind (addParts_code hl hf _ _) fun _ => Sub.refl _

theorem factorN_code : ∀ (n : ℕ) (F : PV Mono ℤ), Sub (factorN E n F) (factorN E.code n F)
  | 0, _ => Sub.refl _
  | n + 1, _ => facLex_code (lf := E.lift) (fun L => factorMulti_code (fun _ _ _ _ _ _ => Sub.refl _) (factorN_code n) L) _

theorem factorAny_code (n : ℕ) (vc' : Var → Var → Bool) (mc' : Mono → Mono → Bool) (F : PV Mono ℤ) : Sub (factorAny E n vc' mc' F) (factorAny E.code n vc' mc' F) :=
  Sub.bind (factorN_code n _) fun _ => Sub.refl _

end

section
variable {vc vc' : Var → Var → Bool} {mc' : Mono → Mono → Bool} {V : Finset Var} {N : ℕ} (ho : VarOrd vc) (M : MonoOrd vc' mc') {E : Env} (hE : E.vc = vc) (hS : Mgcd.Small V N) {ex : Prop} (hU : UniOK ex N E.uni)
  (hprev : PrevOK E.prev) (hT : Tame E.strict V N E.prev) (hL : LiftFits E vc V N) (hsort : ∀ l, (E.sort l).Perm l)

include ho M in
theorem facX_convert {F : MvPolynomial Var ℤ} {c : ℤ} {l : List (PV Mono ℤ × ℕ)} (h : FacX ex vc (lexGt vc) F c l) : FacX ex vc' mc' F c (l.map fun x => (polyConvert vc' mc' id x.1, x.2)) := by
  have key : ∀ x ∈ l, PolyOK vc' mc' (polyConvert vc' mc' id x.1) ∧ val (polyConvert vc' mc' id x.1) = val x.1 := fun x hx => convert_val (lex_ord ho) M (h.ok x hx)
  have hp : facProd (l.map fun x => (polyConvert vc' mc' id x.1, x.2)) = facProd l := by
    unfold facProd
    rw [List.map_map]
    congr 1
    exact List.map_congr_left fun x hx => by simp only [Function.comp_apply, (key x hx).2]
  refine ⟨fun y hy => ?_, fun y hy => ?_, fun y hy => ?_, fun y hy => ?_, by rw [hp]; exact h.prod⟩
  all_goals obtain ⟨x, hx, rfl⟩ := List.mem_map.1 hy
  · exact (key x hx).1
  · dsimp only; rw [(key x hx).2]; exact h.nonconst x hx
  · exact h.pos x hx
  · dsimp only; rw [(key x hx).2]; exact h.prim x hx

include ho M hE hS hU hprev hT hL hsort in
/-- `factorize(polynomial_<ZZ,comp>)` -/
theorem factorAny_spec (n : ℕ) {F : PV Mono ℤ} (hF : PolyOK vc' mc' F) (hv : (val F).vars ⊆ V) (hd : ∀ w, (val F).degreeOf w ≤ N) : Post (factorAny E n vc' mc' F) fun r =>
    FacX ex vc' mc' (val F) r.1 r.2 ∧ (1 < (val F).vars.card → Cop r.2) := by
  obtain ⟨a1, a2⟩ := toLex_in ho M hF hv hd
  unfold factorAny
  rw [hE]
  refine (factorN_spec ho hE hS hU hprev hT hL hsort n a1).bind fun r hr => Post.ret ?_
  rw [a2] at hr
  refine ⟨facX_convert ho M hr.1, fun hc => ?_⟩
  have hm := hr.2 hc
  have key : ∀ x ∈ r.2, val (polyConvert vc' mc' id x.1) = val x.1 := fun x hx => (convert_val (lex_ord ho) M (hr.1.ok x hx)).2
  refine ⟨fun y hy => ?_, ?_⟩
  · obtain ⟨x, hx, rfl⟩ := List.mem_map.1 hy
    dsimp only
    rw [key x hx]; exact hm.cop.sqf x hx
  · rw [List.pairwise_map]
    refine hm.cop.cop.imp_of_mem fun {a b} ha hb hab => ?_
    dsimp only
    rw [key a ha, key b hb]; exact hab

include ho M hE hS hprev hT hL hsort in
theorem factorAny_irr (hU' : UniOK False N E.uni) (hI : UniIrr N E.uni) (n : ℕ) {F : PV Mono ℤ} (hF : PolyOK vc' mc' F) (hv : (val F).vars ⊆ V) (hd : ∀ w, (val F).degreeOf w ≤ N) :
    Post (factorAny E n vc' mc' F) fun r => Irr1 r.2 := by
  obtain ⟨a1, a2⟩ := toLex_in ho M hF hv hd
  unfold factorAny
  rw [hE]
  refine ((factorN_spec ho hE hS hU' hprev hT hL hsort n a1).and (factorN_irr ho hE hS hprev hT hU' hI hL hsort n a1)).bind fun r hr => Post.ret fun y hy => ?_
  obtain ⟨x, hx, rfl⟩ := List.map_eq_singleton_iff.1 hy
  dsimp only
  rw [(convert_val (lex_ord ho) M (hr.1.1.ok x (by simp [hx]))).2]
  exact hr.2 x hx

end

end Wang
end CLPoly
