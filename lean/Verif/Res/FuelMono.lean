import Verif.Res.Defs
import Verif.Gcd.Lists

/-! # More fuel does not change the outcome of `resultant`, `subresultant`, `discriminant` -/

namespace CLPoly

/-- what the first computation returns, the second returns -/
def OLe {α : Type*} (a b : Option α) : Prop := ∀ x, a = some x → b = some x

namespace OLe
variable {α β : Type*}
theorem refl (a : Option α) : OLe a a := fun _ h => h
theorem none {b : Option α} : OLe none b := fun _ h => by cases h
theorem bind {a b : Option α} {f g : α → Option β} (h : OLe a b) (hf : ∀ x, OLe (f x) (g x)) : OLe (a.bind f) (b.bind g) := by
  intro y e
  rw [Option.bind_eq_some_iff] at e ⊢
  obtain ⟨x, h1, h2⟩ := e
  exact ⟨x, h x h1, hf x y h2⟩
theorem map {a b : Option α} (f : α → β) (h : OLe a b) : OLe (a.map f) (b.map f) := by
  intro y e
  rw [Option.map_eq_some_iff] at e ⊢
  obtain ⟨x, h1, h2⟩ := e
  exact ⟨x, h x h1, h2⟩
theorem ite {p : Prop} [Decidable p] {a b c d : Option α} (h1 : OLe a c) (h2 : OLe b d) : OLe (if p then a else b) (if p then c else d) := by
  split <;> assumption
end OLe

namespace Res
open Mono
variable {R : Type} [CommRing R] [DecidableEq R] {v : Var} {divc : R → R → R × R} {n m : ℕ}

theorem divP_mono (h : n ≤ m) (p q : PV Mono R) : OLe (divP v divc n p q) (divP v divc m p q) := by
  intro x e
  obtain ⟨d, rfl⟩ := Nat.exists_eq_add_of_le h
  unfold divP at e ⊢
  rw [Option.join_eq_some_iff] at e ⊢
  exact Mgcd.polyDiv_mono e d

theorem gapS_mono (h : n ≤ m) (A B : PV Mono R) (k : ℕ) : OLe (gapS v divc n A B k) (gapS v divc m A B k) :=
  OLe.ite ((OLe.refl _).bind fun _ => divP_mono h _ _) ((OLe.refl _).bind fun _ => (OLe.refl _).bind fun _ => (OLe.refl _).bind fun _ => divP_mono h _ _)

theorem gapT_mono (h : n ≤ m) (A B : PV Mono R) (k : ℕ) : OLe (gapT v divc n A B k) (gapT v divc m A B k) :=
  (OLe.refl _).bind fun _ => (OLe.refl _).bind fun _ => (OLe.refl _).bind fun _ => (divP_mono h _ _).map _

theorem regT_mono (h : n ≤ m) (A B : PV Mono R) : OLe (regT v divc n A B) (regT v divc m A B) :=
  (OLe.refl _).bind fun _ => (OLe.refl _).bind fun _ => divP_mono h _ _

theorem resLoop_mono (h : n ≤ m) : ∀ (i j : ℕ) (A B : PV Mono R), OLe (resLoop v divc n i j A B) (resLoop v divc m i j A B) := by
  intro i
  induction i with
  | zero => intro j A B; cases j <;> exact OLe.refl _
  | succ i ih =>
    intro j A B
    cases j with
    | zero => exact OLe.refl _
    | succ j =>
      exact OLe.ite ((OLe.ite (gapS_mono h _ _ _) (OLe.refl _)).bind fun _ => OLe.ite (OLe.refl _) ((gapT_mono h _ _ _).bind fun _ => ih _ _ _))
        ((regT_mono h _ _).bind fun _ => ih _ _ _)

theorem startEq_mono (h : n ≤ m) (G B : PV Mono R) (j : ℕ) : OLe (startEq v divc n G B j) (startEq v divc m G B j) :=
  OLe.ite ((OLe.refl _).bind fun _ => OLe.ite (OLe.refl _) ((OLe.refl _).bind fun _ => (divP_mono h _ _).bind fun _ => resLoop_mono h _ _ _ _))
    ((OLe.refl _).bind fun _ => (divP_mono h _ _).bind fun _ => resLoop_mono h _ _ _ _)

theorem resChain_mono (h : n ≤ m) (F G : PV Mono R) : OLe (resChain v divc n F G) (resChain v divc m F G) :=
  OLe.ite (OLe.ite ((OLe.refl _).bind fun _ => resLoop_mono h _ _ _ _) ((OLe.refl _).bind fun _ => (OLe.refl _).bind fun _ => resLoop_mono h _ _ _ _))
    ((OLe.refl _).bind fun _ => OLe.ite (OLe.refl _) (startEq_mono h _ _ _))

theorem resUp_mono (h : n ≤ m) (F G : PV Mono R) : OLe (resUp v divc n F G) (resUp v divc m F G) :=
  OLe.ite (OLe.refl _) (OLe.ite (OLe.refl _) (OLe.ite (OLe.refl _) (OLe.ite ((OLe.ite (OLe.refl _) (resChain_mono h _ _)).map _) (OLe.ite (OLe.refl _) (resChain_mono h _ _)))))

theorem resultant_mono (vc : Var → Var → Bool) (mc : Mono → Mono → Bool) (h : n ≤ m) (F G : PV Mono R) (v : Var) : OLe (resultant vc mc divc n F G v) (resultant vc mc divc m F G v) :=
  (resUp_mono h _ _).map _

theorem subLoop_mono (h : n ≤ m) (isList : Bool) : ∀ (i j : ℕ) (A B : PV Mono R) (L : List (PV Mono R)), OLe (subLoop v divc n isList i j A B L) (subLoop v divc m isList i j A B L) := by
  intro i
  induction i with
  | zero => intro j A B L; cases j <;> exact OLe.refl _
  | succ i ih =>
    intro j A B L
    cases j with
    | zero => exact OLe.refl _
    | succ j =>
      exact OLe.ite (OLe.refl _) (OLe.ite ((OLe.ite (gapS_mono h _ _ _) (OLe.refl _)).bind fun _ => OLe.ite (OLe.refl _) ((gapT_mono h _ _ _).bind fun _ => ih _ _ _ _))
        ((regT_mono h _ _).bind fun _ => ih _ _ _ _))

theorem subStartEq_mono (h : n ≤ m) (isList : Bool) (G B : PV Mono R) (j : ℕ) (L : List (PV Mono R)) : OLe (subStartEq v divc n isList G B j L) (subStartEq v divc m isList G B j L) :=
  OLe.ite (OLe.refl _) (OLe.ite ((OLe.refl _).bind fun _ => OLe.ite (OLe.refl _) ((OLe.refl _).bind fun _ => (divP_mono h _ _).bind fun _ => subLoop_mono h _ _ _ _ _ _))
    ((OLe.refl _).bind fun _ => (divP_mono h _ _).bind fun _ => subLoop_mono h _ _ _ _ _ _))

theorem subresUp_mono (h : n ≤ m) (isList : Bool) (F G : PV Mono R) : OLe (subresUp v divc n isList F G) (subresUp v divc m isList F G) :=
  OLe.ite (OLe.ite ((OLe.refl _).bind fun _ => subLoop_mono h _ _ _ _ _ _) ((OLe.refl _).bind fun _ => (OLe.refl _).bind fun _ => subLoop_mono h _ _ _ _ _ _))
    ((OLe.refl _).bind fun _ => OLe.ite (OLe.refl _) (subStartEq_mono h _ _ _ _ _))

theorem subresultant_mono (vc : Var → Var → Bool) (mc : Mono → Mono → Bool) (h : n ≤ m) (F G : PV Mono R) (v : Var) (isList : Bool) :
    OLe (subresultant vc mc divc n F G v isList) (subresultant vc mc divc m F G v isList) := (subresUp_mono h _ _ _).map _

theorem discriminant_mono (vc : Var → Var → Bool) (mc : Mono → Mono → Bool) {divc : ℤ → ℤ → ℤ × ℤ} (h : n ≤ m) (G : PV Mono ℤ) (v : Var) :
    OLe (discriminant vc mc divc n G v) (discriminant vc mc divc m G v) :=
  OLe.ite (OLe.refl _) ((resUp_mono h _ _).bind fun _ => (divP_mono h _ _).map _)

end Res
end CLPoly
