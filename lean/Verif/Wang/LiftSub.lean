import Verif.Wang.LiftDefs
import Verif.Wang.Strict

/-! # Every run of the lifting with the additional tests is a run of the code -/

namespace CLPoly
namespace Mtshl
open Mono Mgcd Run Upoly Factor Lift Wang Charset

theorem Sub.guard {β : Type} {P Q : Prop} [Decidable P] [Decidable Q] {m m' : Run β} (h : Sub m m') : Sub (if true = true ∧ P then fail else m) (if false = true ∧ Q then fail else m') := by
  rw [if_neg (fun h : false = true ∧ Q => Bool.noConfusion h.1)]
  by_cases hp : true = true ∧ P
  · rw [if_pos hp]; exact Sub.fail _
  · rw [if_neg hp]; exact h

section
variable {R : Type} [DecidableEq R] [CommRing R] {vc : Var → Var → Bool}

theorem mulN_sub (p q : PV Mono R) : Sub (mulN true vc p q) (mulN false vc p q) := Sub.guard (Sub.refl _)
theorem asg_sub (x : Var) (a : R) (p : PV Mono R) : Sub (asg true vc x a p) (asg false vc x a p) := by unfold asg; exact Sub.guard (Sub.refl _)

theorem prodFrom_sub : ∀ (l : List (PV Mono R)) (acc : PV Mono R), Sub (prodFrom true vc acc l) (prodFrom false vc acc l)
  | [], _ => Sub.refl _
  | _ :: l, _ => Sub.bind (mulN_sub _ _) fun a => prodFrom_sub l a

theorem prodAll_sub : ∀ l : List (PV Mono R), Sub (prodAll true vc l) (prodAll false vc l)
  | [] => Sub.refl _
  | _ :: l => prodFrom_sub l _

theorem cofactors_sub (F : List (PV Mono R)) : Sub (cofactors true vc F) (cofactors false vc F) := Wang.runMap_sub (fun _ => prodAll_sub _) _

theorem errorOf_sub : ∀ (e : PV Mono R) (rs bs : List (PV Mono R)), Sub (errorOf true vc e rs bs) (errorOf false vc e rs bs)
  | _, [], _ => by unfold errorOf; exact Sub.refl _
  | _, _ :: _, [] => by unfold errorOf; exact Sub.refl _
  | e, r :: rs, b :: bs => by
    unfold errorOf
    exact Sub.ite (errorOf_sub _ _ _) (Sub.bind (mulN_sub _ _) fun t => errorOf_sub _ _ _)

theorem addCorr_sub (xp : PV Mono R) : ∀ rs ds : List (PV Mono R), Sub (addCorr true vc xp rs ds) (addCorr false vc xp rs ds)
  | [], _ => by unfold addCorr; exact Sub.refl _
  | _ :: _, [] => by unfold addCorr; exact Sub.refl _
  | r :: rs, d :: ds => by
    unfold addCorr
    exact Sub.bind (Sub.ite (Sub.refl _) (Sub.bind (mulN_sub _ _) fun t => Sub.refl _)) fun r' => Sub.bind (addCorr_sub xp rs ds) fun l => Sub.refl _

end

section
variable {R : Type} [DecidableEq R] [Field R] {vc : Var → Var → Bool} {fuel : ℕ}

theorem quoX_sub (g d : PV Mono R) : Sub (quoX true vc fuel g d) (quoX false vc fuel g d) := Sub.guard (Sub.refl _)

theorem divPow_sub (d : PV Mono R) : ∀ (j : ℕ) (g : PV Mono R), Sub (divPow true vc fuel d j g) (divPow false vc fuel d j g)
  | 0, _ => Sub.refl _
  | j + 1, _ => Sub.bind (quoX_sub _ _) fun q => divPow_sub d j q

theorem taylorCoeff_sub (f : PV Mono R) (x : Var) (a : R) (j : ℕ) : Sub (taylorCoeff true vc fuel f x a j) (taylorCoeff false vc fuel f x a j) :=
  Sub.ite (Sub.refl _) (Sub.bind (divPow_sub _ _ _) fun _ => asg_sub _ _ _)

variable {solve solve' : List (PV Mono R) → PV Mono R → Run (Option (List (PV Mono R)))} (hs : ∀ F c, Sub (solve F c) (solve' F c))

include hs in
theorem taylorLoop_sub (Fb : List (PV Mono R)) (c : PV Mono R) (bs : List (PV Mono R)) (x : Var) (a : R) : ∀ (n k : ℕ) (xp e : PV Mono R) (res : List (PV Mono R)),
    Sub (taylorLoop true vc fuel solve Fb c bs x a n k xp e res) (taylorLoop false vc fuel solve' Fb c bs x a n k xp e res) := by
  intro n
  induction n with
  | zero => intro k xp e res; exact Sub.refl _
  | succ n ih =>
    intro k xp e res
    unfold taylorLoop
    refine Sub.bind (mulN_sub _ _) fun xp' => Sub.bind (taylorCoeff_sub _ _ _ _) fun ck => Sub.ite (ih _ _ _ _) (Sub.bind (hs _ _) fun o => ?_)
    match o with
    | none => exact Sub.refl _
    | some δ => exact Sub.bind (addCorr_sub _ _ _) fun res' => Sub.bind (errorOf_sub _ _ _) fun e' => Sub.ite (Sub.refl _) (ih _ _ _ _)

include hs in
theorem solveTaylor_sub (nb : PV Mono R → PV Mono R) (x : Var) (a : R) (F : List (PV Mono R)) (c : PV Mono R) : Sub (solveTaylor true vc fuel solve nb x a F c) (solveTaylor false vc fuel solve' nb x a F c) := by
  unfold solveTaylor
  refine Sub.bind (Wang.runMap_sub (fun _ => asg_sub _ _ _) _) fun Fb0 => Sub.bind (asg_sub _ _ _) fun cb => Sub.bind (hs _ _) fun o => ?_
  match o with
  | none => exact Sub.refl _
  | some r0 => exact Sub.bind (cofactors_sub _) fun bs => Sub.bind (errorOf_sub _ _ _) fun e => Sub.ite (Sub.refl _) (taylorLoop_sub hs _ _ _ _ _ _ _ _ _ _)

theorem wmds_sub (x1 : Var) : ∀ (ys : List (Var × R)) (F : List (PV Mono R)) (c : PV Mono R), Sub (wmds true vc fuel x1 ys F c) (wmds false vc fuel x1 ys F c)
  | [], F, c => by rw [wmds, wmds]; exact Sub.refl _
  | y :: ys, F, c => by
    rw [wmds, wmds]
    exact solveTaylor_sub (fun F c => wmds_sub x1 ys F c) _ _ _ _ _

theorem checkSum_sub (F : List (PV Mono R)) : ∀ (i : ℕ) (acc : PV Mono R) (rs : List (PV Mono R)), Sub (checkSum true vc F i acc rs) (checkSum false vc F i acc rs)
  | _, _, [] => Sub.refl _
  | i, acc, r :: rs => by
    unfold checkSum
    exact Sub.ite (checkSum_sub F _ _ rs) (Sub.bind (prodAll_sub _) fun b => Sub.bind (mulN_sub _ _) fun t => checkSum_sub F _ _ rs)

theorem sparseInt_sub (p : ℕ) (x1 : Var) (aux : List Var) (F : List (PV Mono R)) (c : PV Mono R) (forms : List (List Mono)) : Sub (sparseInt true vc p x1 aux F c forms) (sparseInt false vc p x1 aux F c forms) := by
  unfold sparseInt
  refine Sub.ite (Sub.refl _) (Sub.bind (Sub.refl _) fun betas => Sub.bind (Sub.refl _) fun ic => Sub.bind (Sub.refl _) fun iF => Sub.bind (Sub.refl _) fun o => ?_)
  match o with
  | none => exact Sub.refl _
  | some sv =>
    refine Sub.bind (Sub.refl _) fun o => ?_
    match o with
    | none => exact Sub.refl _
    | some res => exact Sub.bind (checkSum_sub _ _ _ _) fun k => Sub.refl _

theorem lcCorrect_sub (x1 : Var) (G T : PV Mono R) : Sub (lcCorrect true vc x1 G T) (lcCorrect false vc x1 G T) :=
  Sub.ite (Sub.refl _) (Sub.ite (Sub.refl _) (Sub.bind (mulN_sub _ _) fun _ => Sub.refl _))

theorem lcCorrectAll_sub (x1 : Var) : ∀ Gs Ts : List (PV Mono R), Sub (lcCorrectAll true vc x1 Gs Ts) (lcCorrectAll false vc x1 Gs Ts)
  | [], _ => by unfold lcCorrectAll; exact Sub.refl _
  | _ :: _, [] => by unfold lcCorrectAll; exact Sub.refl _
  | G :: Gs, T :: Ts => by
    unfold lcCorrectAll
    exact Sub.bind (lcCorrect_sub _ _ _) fun G' => Sub.bind (lcCorrectAll_sub x1 Gs Ts) fun l => Sub.refl _

theorem stepSolve_sub {ex : Bool} (p : ℕ) (x1 : Var) (aux : List (Var × R)) (Fb : List (PV Mono R)) (ck : PV Mono R) (forms : List (List Mono)) : Sub (stepSolve true ex vc fuel p x1 aux Fb ck forms) (stepSolve false false vc fuel p x1 aux Fb ck forms) := by
  unfold stepSolve
  match aux with
  | [] => exact Sub.refl _
  | y :: ys =>
    refine Sub.bind (sparseInt_sub _ _ _ _ _ _) fun o => ?_
    match o with
    | some s => exact Sub.refl _
    | none =>
      refine Sub.bind (sparseInt_sub _ _ _ _ _ _) fun o => ?_
      match o with
      | some s => exact Sub.refl _
      | none =>
        refine Sub.bind (Sub.ite (solveTaylor_sub (fun _ _ => Sub.refl _) _ _ _ _ _) (wmds_sub _ _ _ _)) fun o => ?_
        rw [if_neg (fun h : false = true ∧ _ => Bool.noConfusion h.1)]
        by_cases h : ex = true ∧ unsolved vc Fb ck o = true
        · rw [if_pos h]; exact Sub.fail _
        · rw [if_neg h]; exact Sub.refl _

theorem stepLoop_sub {ex : Bool} (p : ℕ) (x1 : Var) (aux : List (Var × R)) (aj : PV Mono R) (Fb : List (PV Mono R)) (x : Var) (a : R) : ∀ (n k : ℕ) (xp e : PV Mono R) (F : List (PV Mono R)) (forms : List (List Mono)),
    Sub (stepLoop true ex vc fuel p x1 aux aj Fb x a n k xp e F forms) (stepLoop false false vc fuel p x1 aux aj Fb x a n k xp e F forms) := by
  intro n
  induction n with
  | zero => intro k xp e F forms; exact Sub.refl _
  | succ n ih =>
    intro k xp e F forms
    unfold stepLoop
    refine Sub.bind (mulN_sub _ _) fun xp' => Sub.bind (taylorCoeff_sub _ _ _ _) fun ck => Sub.ite (ih _ _ _ _ _) (Sub.bind (stepSolve_sub _ _ _ _ _ _) fun o => ?_)
    match o with
    | none => exact Sub.refl _
    | some σ => exact Sub.bind (addCorr_sub _ _ _) fun F' => Sub.bind (prodAll_sub _) fun pr => Sub.ite (Sub.refl _) (ih _ _ _ _ _)

theorem stepJ_sub {ex : Bool} (p : ℕ) (x1 : Var) (aux : List (Var × R)) (aj : PV Mono R) (F taus : List (PV Mono R)) (x : Var) (a : R) : Sub (stepJ true ex vc fuel p x1 aux aj F taus x a) (stepJ false false vc fuel p x1 aux aj F taus x a) :=
  Sub.bind (lcCorrectAll_sub _ _ _) fun _ => Sub.bind (Wang.runMap_sub (fun _ => asg_sub _ _ _) _) fun _ => Sub.bind (prodAll_sub _) fun _ => stepLoop_sub _ _ _ _ _ _ _ _ _ _ _ _ _

theorem asgAll_sub : ∀ (ys : List (Var × R)) (f : PV Mono R), Sub (asgAll true vc ys f) (asgAll false vc ys f)
  | [], _ => Sub.refl _
  | _ :: ys, _ => Sub.bind (asg_sub _ _ _) fun _ => asgAll_sub ys _

theorem asgPartial_sub (ys : List (Var × R)) (f : PV Mono ℤ) : Sub (asgPartial true vc ys f) (asgPartial false vc ys f) := asgAll_sub _ _

theorem liftLoop_sub {ex : Bool} (p : ℕ) (x1 : Var) (f : PV Mono ℤ) (taus : List (PV Mono ℤ)) : ∀ (ys aux : List (Var × R)) (F : List (PV Mono R)), Sub (liftLoop true ex vc fuel p x1 f taus aux ys F) (liftLoop false false vc fuel p x1 f taus aux ys F)
  | [], _, _ => by unfold liftLoop; exact Sub.refl _
  | y :: ys, aux, F => by
    unfold liftLoop
    refine Sub.bind (asgPartial_sub _ _) fun aj => Sub.bind (Wang.runMap_sub (fun _ => asgPartial_sub _ _) _) fun tz => Sub.bind (stepJ_sub _ _ _ _ _ _ _ _) fun o => ?_
    match o with
    | none => exact Sub.refl _
    | some F' => exact liftLoop_sub p x1 f taus ys _ F'

end

section
variable {vc : Var → Var → Bool} {fuel : ℕ} {p : ℕ} [Fact p.Prime]

theorem padicLoop_sub (x1 : Var) (aux : List Var) (f : PV Mono ℤ) (B : ℤ) (F : List (PV Mono (ZMod p))) : ∀ (n : ℕ) (M : ℤ) (res : List (PV Mono ℤ)) (forms : List (List Mono)),
    Sub (padicLoop true vc p x1 aux f B F n M res forms) (padicLoop false vc p x1 aux f B F n M res forms) := by
  intro n
  induction n with
  | zero => intro M res forms; exact Sub.refl _
  | succ n ih =>
    intro M res forms
    unfold padicLoop
    refine Sub.ite (Sub.refl _) (Sub.bind (prodAll_sub _) fun pr => Sub.ite (Sub.refl _) (Sub.ite (Sub.refl _) (Sub.bind (Sub.bind (sparseInt_sub _ _ _ _ _ _) fun o => ?_) fun o => ?_)))
    · match o with
      | none => exact sparseInt_sub _ _ _ _ _ _
      | some s => exact Sub.refl _
    · match o with
      | none => exact Sub.refl _
      | some σ => exact ih _ _ _

theorem mtshlLift_sub {ex : Bool} (f : PV Mono ℤ) (vs : List (UPoly ℤ)) (taus : List (PV Mono ℤ)) (α : List (Var × ℤ)) (x1 : Var) : Sub (mtshlLift true ex vc fuel p f vs taus α x1) (mtshlLift false false vc fuel p f vs taus α x1) := by
  unfold mtshlLift
  refine Sub.bind (liftLoop_sub _ _ _ _ _ _ _) fun o => ?_
  match o with
  | none => exact Sub.refl _
  | some F => exact Sub.ite (Sub.refl _) (padicLoop_sub _ _ _ _ _ _ _ _ _)

end

section
variable {vc : Var → Var → Bool} {fuel : ℕ}

theorem powFrom_sub (l : PV Mono ℤ) : ∀ (k : ℕ) (acc : PV Mono ℤ), Sub (powFrom true vc l acc k) (powFrom false vc l acc k)
  | 0, _ => Sub.refl _
  | k + 1, _ => Sub.bind (mulN_sub _ _) fun a => powFrom_sub l k a

theorem assignLc_sub : ∀ (ls : List (PV Mono ℤ × ℤ)) (R : ℤ) (sg : PV Mono ℤ), Sub (assignLc true vc fuel ls R sg) (assignLc false vc fuel ls R sg)
  | [], _, _ => Sub.refl _
  | _ :: ls, _, _ => Sub.bind (Sub.refl _) fun _ => Sub.bind (Sub.ite (Sub.bind (powFrom_sub _ _ _) fun _ => mulN_sub _ _) (Sub.refl _)) fun _ => Sub.bind (assignLc_sub ls _ _) fun _ => Sub.refl _

theorem assignAll_sub (ls : List (PV Mono ℤ × ℤ)) : ∀ ws : List ℤ, Sub (assignAll true vc fuel ls ws) (assignAll false vc fuel ls ws)
  | [] => Sub.refl _
  | _ :: ws => Sub.bind (assignLc_sub _ _ _) fun _ => Sub.bind (assignAll_sub ls ws) fun _ => Sub.refl _

theorem target_sub (α : List (Var × ℤ)) (δ : ℤ) (sg : PV Mono ℤ) : Sub (target true vc α δ sg) (target false vc α δ sg) :=
  Sub.ite (Sub.refl _) (Sub.ite (Sub.refl _) (Sub.bind (mulN_sub _ _) fun _ => Sub.refl _))

theorem targets_sub (α : List (Var × ℤ)) (δ : ℤ) : ∀ sg : List (PV Mono ℤ), Sub (targets true vc α δ sg) (targets false vc α δ sg)
  | [] => Sub.refl _
  | s :: ss => by
    unfold targets
    refine Sub.bind (target_sub _ _ _) fun o => ?_
    match o with
    | none => exact Sub.refl _
    | some t => exact Sub.bind (targets_sub α δ ss) fun _ => Sub.refl _

variable {facL facL' : PV Mono ℤ → Run (ℤ × List (PV Mono ℤ × ℕ))} (hf : ∀ L, Sub (facL L) (facL' L))

include hf in
theorem splitLc_sub (L : PV Mono ℤ) (us : List (UPoly ℤ)) (α : List (Var × ℤ)) (c : ℤ) : Sub (splitLc true vc fuel facL L us α c) (splitLc false vc fuel facL' L us α c) := by
  unfold splitLc
  refine Sub.bind (hf _) fun fl => Sub.ite (Sub.refl _) (Sub.ite (Sub.refl _) (Sub.bind (Sub.refl _) fun b => Sub.ite (Sub.refl _) (Sub.bind (assignAll_sub _ _) fun r => Sub.ite (Sub.refl _) ?_)))
  match r.2 with
  | [] => exact Sub.refl _
  | s :: ss => exact Sub.bind (mulN_sub _ _) fun _ => Sub.refl _

include hf in
theorem wangLc_sub (f : PV Mono ℤ) (us : List (UPoly ℤ)) (α : List (Var × ℤ)) (x : Var) (c : ℤ) : Sub (wangLc true vc fuel facL f us α x c) (wangLc false vc fuel facL' f us α x c) := by
  unfold wangLc
  refine Sub.ite (Sub.refl _) (Sub.bind (Sub.ite (Sub.refl _) (splitLc_sub hf _ _ _ _)) fun o => ?_)
  match o with
  | none => exact Sub.refl _
  | some sg => exact Sub.bind (mulN_sub _ _) fun fs => Sub.bind (Sub.refl _) fun vs => Sub.bind (targets_sub _ _ _) fun _ => Sub.refl _

include hf in
/-- every run with the tests is a run of the code -/
theorem codeLift_sub (N N' : ℕ) (g : PV Mono ℤ) (us : List (UPoly ℤ)) (α : List (Var × ℤ)) (x : Var) (c : ℤ) (p : ℕ) : Sub (codeLift true vc fuel N facL g us α x c p) (codeLift false vc fuel N' facL' g us α x c p) := by
  unfold codeLift
  cases primeDec p with
  | isFalse _ => exact Sub.refl _
  | isTrue hp =>
    haveI := Fact.mk hp
    refine Sub.guard (Sub.bind (wangLc_sub hf _ _ _ _ _) fun o => ?_)
    match o with
    | none => exact Sub.refl _
    | some w => exact Sub.guard (Sub.bind (mtshlLift_sub _ _ _ _ _) fun r => Sub.guard (Sub.refl _))

end

end Mtshl
end CLPoly
