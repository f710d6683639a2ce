import Verif.Charset.RegIs
import Verif.Charset.Wu
import Verif.Res.FuelMono

/-! # More fuel does not change the outcome of the functions on regular chains -/

namespace CLPoly
namespace Charset
open Mono

section o2
variable {α β : Type}

theorem OLe.bind2 {a b : O2 α} {f g : α → O2 β} (h : OLe a b) (hf : ∀ x, OLe (f x) (g x)) : OLe (bind2 a f) (bind2 b g) := by
  intro y e
  cases a with
  | none => cases e
  | some a =>
    rw [h _ rfl]
    cases a with
    | none => exact e
    | some x => exact hf x y e

theorem collect2_mono {f g : α → O2 (List β × List β)} (h : ∀ a, OLe (f a) (g a)) : ∀ l, OLe (collect2 f l) (collect2 g l)
  | [] => OLe.refl _
  | a :: l => OLe.bind2 (h a) fun _ => OLe.bind2 (collect2_mono h l) fun _ => OLe.refl _

theorem collect1_mono {f g : α → O2 (List β)} (h : ∀ a, OLe (f a) (g a)) : ∀ l, OLe (collect1 f l) (collect1 g l)
  | [] => OLe.refl _
  | a :: l => OLe.bind2 (h a) fun _ => OLe.bind2 (collect1_mono h l) fun _ => OLe.refl _

end o2

section
variable {vc : Var → Var → Bool} {chk : Bool} {n m : ℕ}

theorem resC_mono (h : n ≤ m) (F G : PV Mono ℤ) (v : Var) : OLe (resC vc chk n F G v) (resC vc chk m F G v) :=
  OLe.ite (OLe.refl _) ((Res.resultant_mono _ _ h _ _ _).map _)

theorem subC_mono (h : n ≤ m) (F G : PV Mono ℤ) (v : Var) : OLe (subC vc chk n F G v) (subC vc chk m F G v) :=
  OLe.ite (OLe.refl _) ((Res.subresultant_mono _ _ h _ _ _ _).map _)

theorem discC_mono (h : n ≤ m) (G : PV Mono ℤ) (v : Var) : OLe (discC vc chk n G v) (discC vc chk m G v) :=
  OLe.ite (OLe.refl _) ((Res.discriminant_mono _ _ h _ _).map _)

theorem iterRes_mono (h : n ≤ m) (T : List (PV Mono ℤ)) (f : PV Mono ℤ) : OLe (iterRes vc chk n T f) (iterRes vc chk m T f) := by
  induction T with
  | nil => exact OLe.refl _
  | cons c T ih => exact OLe.bind2 ih fun g => resC_mono h _ _ _

theorem iterResB_mono (h : n ≤ m) (T : List (PV Mono ℤ)) (f : PV Mono ℤ) : OLe (iterResB vc chk n T f) (iterResB vc chk m T f) := by
  induction T with
  | nil => exact OLe.refl _
  | cons c T ih => exact OLe.bind2 ih fun g => OLe.ite (OLe.refl _) (resC_mono h _ _ _)

theorem wrsdLoop_mono {w w' : List (PV Mono ℤ) → PV Mono ℤ → O2 (List (List (PV Mono ℤ)) × List (List (PV Mono ℤ)))} (hw : ∀ T f, OLe (w T f) (w' T f)) (x : Var) (t f : PV Mono ℤ) :
    ∀ rs H, OLe (wrsdLoop vc chk w x t f rs H) (wrsdLoop vc chk w' x t f rs H) := by
  intro rs
  induction rs with
  | nil => intro H; cases H <;> exact OLe.refl _
  | cons s rs ih =>
    intro H
    cases H with
    | nil => exact OLe.refl _
    | cons h hs =>
      exact OLe.bind2 (collect2_mono (fun a => hw _ _) _) fun W => OLe.bind2 (collect2_mono (fun g => OLe.bind2 (OLe.refl _) fun q => OLe.ite (OLe.bind2 (hw _ _) fun _ => OLe.refl _) (OLe.refl _)) _)
        fun U => OLe.bind2 (ih _) fun _ => OLe.refl _

theorem wrsd_mono (ord : List Var) : ∀ {n m : ℕ}, n ≤ m → ∀ T f, OLe (wrsd ord chk n T f) (wrsd ord chk m T f) := by
  intro n
  induction n with
  | zero => intro m _ T f; exact OLe.none
  | succ n ih =>
    intro m hm T f
    obtain ⟨m, rfl⟩ : ∃ k, m = k + 1 := ⟨m - 1, by omega⟩
    have hnm : n ≤ m := by omega
    have hw := ih hnm
    exact OLe.bind2 (OLe.refl _) fun g => OLe.ite (hw _ _) (OLe.ite (OLe.refl _) (OLe.ite (OLe.refl _) (OLe.ite (OLe.refl _)
      (OLe.bind2 (iterRes_mono hnm _ _) fun res => OLe.ite (OLe.refl _) (OLe.bind2 (subC_mono hnm _ _ _) fun L => OLe.bind2
        (OLe.ite (OLe.bind2 (OLe.refl _) fun q => OLe.bind2 (hw _ _) fun _ => OLe.refl _) (OLe.bind2 (hw _ _) fun W => OLe.bind2 (wrsdLoop_mono hw _ _ _ _ _) fun _ => OLe.refl _))
        fun _ => OLe.refl _)))))

theorem isRegularFrom_mono (h : n ≤ m) (T : List (PV Mono ℤ)) : ∀ l, OLe (isRegularFrom vc chk n T l) (isRegularFrom vc chk m T l)
  | [] => OLe.refl _
  | _ :: l => OLe.bind2 (iterResB_mono h _ _) fun _ => OLe.ite (OLe.refl _) (isRegularFrom_mono h T l)

theorem firstIrr_mono (h : n ≤ m) (T : List (PV Mono ℤ)) : ∀ l, OLe (firstIrr vc chk n T l) (firstIrr vc chk m T l)
  | [] => OLe.refl _
  | _ :: l => OLe.bind2 (iterResB_mono h _ _) fun _ => OLe.ite (OLe.refl _) (firstIrr_mono h T l)

theorem lastDisc_mono (h : n ≤ m) (T : List (PV Mono ℤ)) : ∀ l, OLe (lastDisc vc chk n T l) (lastDisc vc chk m T l)
  | 0 => OLe.refl _
  | _ + 1 => OLe.bind2 (discC_mono h _ _) fun _ => OLe.bind2 (iterResB_mono h _ _) fun _ => OLe.ite (OLe.refl _) (lastDisc_mono h T _)

theorem rsd_mono (ord : List Var) : ∀ {n m : ℕ}, n ≤ m → ∀ T f, OLe (rsd ord chk n T f) (rsd ord chk m T f) := by
  intro n
  induction n with
  | zero => intro m _ T f; exact OLe.none
  | succ n ih =>
    intro m hm T f
    obtain ⟨m, rfl⟩ : ∃ k, m = k + 1 := ⟨m - 1, by omega⟩
    have hnm : n ≤ m := by omega
    have hw := ih hnm
    exact OLe.bind2 (OLe.refl _) fun g => OLe.ite (OLe.refl _) (OLe.bind2 (iterResB_mono hnm _ _) fun r => OLe.ite (OLe.refl _) (OLe.ite (OLe.refl _) (OLe.ite (OLe.bind2 (hw _ _) fun _ => OLe.refl _)
      (OLe.bind2 (OLe.ite (subC_mono hnm _ _ _) (subC_mono hnm _ _ _)) fun L => OLe.bind2 (OLe.refl _) fun si => OLe.bind2 (iterResB_mono hnm _ _) fun r => OLe.ite
        (OLe.ite (OLe.refl _) (OLe.bind2 (OLe.refl _) fun f1 => OLe.bind2 (OLe.refl _) fun f2 => OLe.bind2 (hw _ _) fun W1 => OLe.bind2 (hw _ _) fun W2 => OLe.refl _))
        (OLe.bind2 (hw _ _) fun W => OLe.bind2 (collect2_mono (fun _ => hw _ _) _) fun _ => OLe.bind2 (collect2_mono (fun _ => hw _ _) _) fun _ => OLe.refl _)))))

theorem rcToSqf_mono (ord : List Var) : ∀ {n m : ℕ}, n ≤ m → ∀ T, OLe (rcToSqf ord chk n T) (rcToSqf ord chk m T) := by
  intro n
  induction n with
  | zero => intro m _ T; exact OLe.none
  | succ n ih =>
    intro m hm T
    obtain ⟨m, rfl⟩ : ∃ k, m = k + 1 := ⟨m - 1, by omega⟩
    have hnm : n ≤ m := by omega
    have hw := ih hnm
    exact OLe.ite (OLe.refl _) (OLe.bind2 (lastDisc_mono hnm _ _) fun k => OLe.ite (OLe.refl _) (OLe.bind2 (discC_mono hnm _ _) fun d => OLe.bind2 (wrsd_mono ord hnm _ _) fun W =>
      OLe.bind2 (collect1_mono (fun _ => hw _) _) fun A => OLe.bind2 (OLe.ite (subC_mono hnm _ _ _) (subC_mono hnm _ _ _)) fun L => OLe.bind2 (OLe.refl _) fun si =>
        OLe.bind2 (iterResB_mono hnm _ _) fun r => OLe.ite (OLe.bind2 (OLe.refl _) fun f1 => OLe.bind2 (OLe.refl _) fun f2 => OLe.bind2 (hw _) fun _ => OLe.refl _)
          (OLe.bind2 (wrsd_mono ord hnm _ _) fun V => OLe.bind2 (collect1_mono (fun _ => hw _) _) fun B => OLe.ite (OLe.bind2 (collect1_mono (fun _ => hw _) _) fun _ => OLe.refl _) (OLe.refl _))))

theorem nonzeroOn_mono (ord : List Var) (h : n ≤ m) : ∀ H O, OLe (nonzeroOn ord chk n H O) (nonzeroOn ord chk m H O)
  | [], _ => OLe.refl _
  | _ :: hs, _ => OLe.bind2 (collect1_mono (fun _ => OLe.bind2 (iterResB_mono h _ _) fun _ => OLe.ite (OLe.bind2 (wrsd_mono ord h _ _) fun _ => OLe.refl _) (OLe.refl _)) _)
      fun _ => nonzeroOn_mono ord h hs _

theorem splitNonneg_mono (ord : List Var) (h : n ≤ m) : ∀ G U, OLe (splitNonneg ord chk n G U) (splitNonneg ord chk m G U)
  | [], _ => OLe.refl _
  | _ :: gs, _ => OLe.bind2 (collect1_mono (fun _ => OLe.bind2 (iterResB_mono h _ _) fun _ => OLe.ite (OLe.bind2 (wrsd_mono ord h _ _) fun _ => OLe.refl _) (OLe.refl _)) _)
      fun _ => splitNonneg_mono ord h gs _

/-! ## runs -/

theorem SubS.bind {α β : Type} {a : Run α} {f g : α → Run (Option β)} (hf : ∀ x, SubS (f x) (g x)) : SubS (Run.bind a f) (Run.bind a g) := by
  intro s x rest e
  simp only [Run.bind, Option.bind_eq_some_iff] at e ⊢
  obtain ⟨p, h1, h2⟩ := e
  exact ⟨p, h1, hf _ _ _ _ h2⟩

theorem SubS.bindR {α β : Type} {a b : Run (Option α)} {f g : α → Run (Option β)} (h : SubS a b) (hf : ∀ x, SubS (f x) (g x)) : SubS (bindR a f) (bindR b g) := by
  intro s x rest e
  simp only [Charset.bindR, Run.bind, Option.bind_eq_some_iff] at e ⊢
  obtain ⟨⟨p, s'⟩, h1, h2⟩ := e
  cases p with
  | none => simp [Run.ret] at h2
  | some p => exact ⟨(some p, s'), h _ _ _ h1, hf _ _ _ _ h2⟩

theorem SubS.liftO {α : Type} {a b : O2 α} (h : OLe a b) : SubS (liftO a) (liftO b) := by
  intro s x rest e
  cases a with
  | none => simp [Charset.liftO, Run.ret] at e
  | some a => rw [h _ rfl]; exact e

theorem SubS.liftO2 {α : Type} {a b : O2 α} (h : Le2 a b) : SubS (Charset.liftO a) (Charset.liftO b) := by
  intro s x rest e
  match a with
  | none => simp [Charset.liftO, Run.ret] at e
  | some none => simp [Charset.liftO, Run.fail] at e
  | some (some a) => rw [h _ rfl]; exact e

theorem SubS.refl {α : Type} (a : Run (Option α)) : SubS a a := fun _ _ _ e => e
theorem SubS.ite {α : Type} {p : Prop} [Decidable p] {a b c d : Run (Option α)} (h1 : SubS a c) (h2 : SubS b d) : SubS (if p then a else b) (if p then c else d) := by split <;> assumption

theorem zdToRC_mono (ord : List Var) (sq : PV Mono ℤ → Run (PV Mono ℤ)) : ∀ {n m : ℕ}, n ≤ m → ∀ T, SubS (zdToRC ord chk sq n T) (zdToRC ord chk sq m T) := by
  intro n
  induction n with
  | zero => intro m _ T s x rest e; simp [zdToRC, Run.ret] at e
  | succ n ih =>
    intro m hm T
    obtain ⟨m, rfl⟩ : ∃ k, m = k + 1 := ⟨m - 1, by omega⟩
    have hnm : n ≤ m := by omega
    exact SubS.ite (SubS.refl _) (SubS.bindR (SubS.liftO (firstIrr_mono hnm _ _)) fun k => SubS.ite (SubS.refl _) (SubS.bindR (SubS.liftO (wrsd_mono ord hnm _ _)) fun W =>
      runCollect_sub (fun R => SubS.bind fun R => ih hnm _) _))

theorem zdToRC_sub (ord : List Var) {sq sq' : PV Mono ℤ → Run (PV Mono ℤ)} (h : ∀ F, Run.Sub (sq F) (sq' F)) : ∀ (n : ℕ) T, SubS (zdToRC ord chk sq n T) (zdToRC ord false sq' n T) := by
  intro n
  induction n with
  | zero => intro T s x rest e; simp [zdToRC, Run.ret] at e
  | succ n ih =>
    intro T
    refine SubS.ite (SubS.refl _) (SubS.bindR (SubS.liftO2 (firstIrr_code _ _)) fun k => SubS.ite (SubS.refl _) (SubS.bindR (SubS.liftO2 (wrsd_code ord chk n _ _)) fun W =>
      runCollect_sub (fun R => ?_) _))
    intro s x rest e
    simp only [Run.bind, Option.bind_eq_some_iff] at e ⊢
    obtain ⟨p, h1, h2⟩ := e
    exact ⟨p, runMap_sub h _ _ _ h1, ih _ _ _ _ h2⟩

theorem wuCharset_mono (sq : PV Mono ℤ → Run (PV Mono ℤ)) : ∀ {n m : ℕ}, n ≤ m → ∀ P, SubS (wuCharset vc chk sq n P) (wuCharset vc chk sq m P) := by
  intro n
  induction n with
  | zero => intro m _ P s x rest e; simp [wuCharset, Run.ret] at e
  | succ n ih =>
    intro m hm P s x rest e
    obtain ⟨m, rfl⟩ : ∃ k, m = k + 1 := ⟨m - 1, by omega⟩
    have hnm : n ≤ m := by omega
    unfold wuCharset at e ⊢
    cases hc : charset vc chk gtZ n P with
    | none => rw [hc] at e; simp [Run.ret] at e
    | some o =>
      rw [charset_mono hnm hc]
      rw [hc] at e
      cases o with
      | none => exact e
      | some C =>
        refine (SubS.bind fun C => SubS.ite (SubS.refl _) ?_) s x rest e
        intro s x rest e
        simp only [Run.bind, Option.bind_eq_some_iff] at e ⊢
        obtain ⟨⟨r, s2⟩, e2, e⟩ := e
        cases r with
        | none => simp [Run.ret] at e
        | some z => exact ⟨(some z, s2), runCollect_sub (fun a => SubS.ite (SubS.refl _) (ih hnm _)) C _ _ _ e2, e⟩

end

end Charset
end CLPoly
