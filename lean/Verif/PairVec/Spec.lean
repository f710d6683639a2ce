import Verif.PairVec.Defs
import Mathlib.Algebra.Ring.Defs
import Mathlib.Algebra.Group.Hom.Defs
import Mathlib.Algebra.BigOperators.Group.List.Basic
import Mathlib.Order.Defs.LinearOrder
import Mathlib.Order.WithBot
import Mathlib.Tactic.Ring
import Mathlib.Tactic.Abel

/-!
# Specification vocabulary for pair vectors

* `Lawful S comp`: on the keys satisfying `S` the comparator is a strict total order.
* `Canon comp v`: strictly decreasing keys and no zero coefficient – the documented normal form.
* `den T v`: the value denoted by a vector, `Σ T key coefficient`, in any commutative ring `A`, for any
  interpretation `T` of terms that is additive in the coefficient.
-/

namespace CLPoly

variable {K R A : Type*}

/-- strict total order on the valid keys -/
structure Lawful (S : K → Prop) (comp : K → K → Bool) : Prop where
  irrefl : ∀ a, S a → comp a a = false
  trans : ∀ a b c, S a → S b → S c → comp a b = true → comp b c = true → comp a c = true
  total : ∀ a b, S a → S b → a ≠ b → comp a b = true ∨ comp b a = true

/-- every key of the vector is valid -/
def KeysIn (S : K → Prop) (v : PV K R) : Prop := ∀ x ∈ v, S x.1

/-- canonical form -/
def Canon [Zero R] (comp : K → K → Bool) (v : PV K R) : Prop :=
  v.Pairwise (fun a b => comp a.1 b.1 = true) ∧ ∀ x ∈ v, x.2 ≠ 0

/-- denotation -/
def den [AddCommMonoid R] [AddCommMonoid A] (T : K → R →+ A) (v : PV K R) : A :=
  (v.map fun x => T x.1 x.2).sum

/-- a rank into a linear order that explains the comparator (proof device) -/
structure Ranked {L : Type*} [LinearOrder L] (S : K → Prop) (comp : K → K → Bool) (r : K → L) : Prop where
  comp_iff : ∀ a b, S a → S b → (comp a b = true ↔ r b < r a)
  inj : ∀ a b, S a → S b → r a = r b → a = b

section den
variable [AddCommMonoid R] [AddCommMonoid A] (T : K → R →+ A)

@[simp] theorem den_nil : den T ([] : PV K R) = 0 := rfl
@[simp] theorem den_cons (x : K × R) (v : PV K R) : den T (x :: v) = T x.1 x.2 + den T v := by
  simp [den]
@[simp] theorem den_append (u v : PV K R) : den T (u ++ v) = den T u + den T v := by simp [den]
theorem den_perm {u v : PV K R} (h : u.Perm v) : den T u = den T v := (h.map _).sum_eq
end den

theorem KeysIn.cons {S : K → Prop} {x : K × R} {v : PV K R} :
    KeysIn S (x :: v) ↔ S x.1 ∧ KeysIn S v := by simp [KeysIn]
theorem KeysIn.nil {S : K → Prop} : KeysIn S ([] : PV K R) := by simp [KeysIn]
theorem KeysIn.append {S : K → Prop} {u v : PV K R} :
    KeysIn S (u ++ v) ↔ KeysIn S u ∧ KeysIn S v := by
  simp only [KeysIn, List.mem_append]
  exact ⟨fun h => ⟨fun x hx => h x (.inl hx), fun x hx => h x (.inr hx)⟩,
    fun h x hx => hx.elim (h.1 x) (h.2 x)⟩

/-- the linear order on valid keys given by a lawful comparator (greater = earlier) -/
noncomputable def Lawful.linearOrder {S : K → Prop} {comp : K → K → Bool} (h : Lawful S comp) :
    LinearOrder {a // S a} :=
  letI : DecidableEq {a // S a} := Classical.decEq _
  letI : DecidableRel (fun a b : {a // S a} => a = b ∨ comp b.1 a.1 = true) :=
    fun _ _ => Classical.propDecidable _
  { le := fun a b => a = b ∨ comp b.1 a.1 = true
    lt := fun a b => comp b.1 a.1 = true
    le_refl := fun a => .inl rfl
    le_trans := by
      rintro a b c (rfl | h1) (rfl | h2)
      · exact .inl rfl
      · exact .inr h2
      · exact .inr h1
      · exact .inr (h.trans _ _ _ c.2 b.2 a.2 h2 h1)
    lt_iff_le_not_ge := by
      intro a b
      constructor
      · intro hab
        refine ⟨.inr hab, ?_⟩
        rintro (rfl | hba)
        · exact Bool.false_ne_true ((h.irrefl _ b.2).symm.trans hab)
        · exact Bool.false_ne_true ((h.irrefl _ a.2).symm.trans (h.trans _ _ _ a.2 b.2 a.2 hba hab))
      · rintro ⟨rfl | hab, hn⟩
        · exact absurd (.inl rfl) hn
        · exact hab
    le_antisymm := by
      rintro a b (rfl | h1) (h2 | h2)
      · rfl
      · rfl
      · exact h2.symm
      · exact absurd ((h.irrefl _ a.2).symm.trans (h.trans _ _ _ a.2 b.2 a.2 h2 h1)) Bool.false_ne_true
    le_total := by
      intro a b
      by_cases hab : a = b
      · exact .inl (.inl hab)
      · rcases h.total a.1 b.1 a.2 b.2 (fun e => hab (Subtype.ext e)) with h1 | h1
        · exact .inr (.inr h1)
        · exact .inl (.inr h1)
    toDecidableLE := inferInstance }

open Classical in
/-- every lawful comparator is explained by a rank -/
theorem Lawful.exists_rank.{u} {K : Type u} {S : K → Prop} {comp : K → K → Bool} (h : Lawful S comp) :
    ∃ (L : Type u) (_ : LinearOrder L) (r : K → L), Ranked S comp r := by
  letI := h.linearOrder
  let r : K → WithBot {a // S a} := fun a => if ha : S a then ((⟨a, ha⟩ : {a // S a}) : WithBot _) else ⊥
  have hr : ∀ a (ha : S a), r a = ((⟨a, ha⟩ : {a // S a}) : WithBot _) := fun a ha => dif_pos ha
  refine ⟨WithBot {a // S a}, inferInstance, r, ?_, ?_⟩
  · intro a b ha hb
    rw [hr a ha, hr b hb, WithBot.coe_lt_coe]
    exact Iff.rfl
  · intro a b ha hb hab
    rw [hr a ha, hr b hb] at hab
    exact congrArg Subtype.val (WithBot.coe_injective hab)

/-- a rank yields a lawful comparator -/
theorem Ranked.lawful {L : Type*} [LinearOrder L] {S : K → Prop} {comp : K → K → Bool} {r : K → L}
    (h : Ranked S comp r) : Lawful S comp where
  irrefl a ha := by
    by_contra hc
    rw [Bool.not_eq_false, h.comp_iff a a ha ha] at hc
    exact lt_irrefl _ hc
  trans a b c ha hb hc h1 h2 := by
    rw [h.comp_iff _ _ ha hb] at h1; rw [h.comp_iff _ _ hb hc] at h2
    rw [h.comp_iff _ _ ha hc]; exact h2.trans h1
  total a b ha hb hne := by
    rw [h.comp_iff _ _ ha hb, h.comp_iff _ _ hb ha]
    rcases lt_trichotomy (r a) (r b) with h1 | h1 | h1
    · exact .inr h1
    · exact absurd (h.inj _ _ ha hb h1) hne
    · exact .inl h1

end CLPoly
