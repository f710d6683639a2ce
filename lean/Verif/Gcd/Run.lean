import Mathlib.Data.Option.Basic
import Mathlib.Tactic.Common

/-!
# Computations that draw random numbers

A computation gets the stream of raw random draws that it will make and either fails (out of fuel, out of draws, failed assertion, exception) or returns a value and the
rest of the stream.
-/

namespace CLPoly

/-- a computation with random draws -/
def Run (α : Type _) := List ℕ → Option (α × List ℕ)

namespace Run
variable {α β γ : Type _}

def ret (a : α) : Run α := fun s => some (a, s)
def fail : Run α := fun _ => none
def bind (m : Run α) (f : α → Run β) : Run β := fun s => (m s).bind fun x => f x.1 x.2
def lift : Option α → Run α
  | none => fail
  | some a => ret a

/-- partial correctness: whatever is returned satisfies `Q` -/
def Post (m : Run α) (Q : α → Prop) : Prop := ∀ s r, m s = some r → Q r.1

theorem Post.ret {a : α} {Q : α → Prop} (h : Q a) : Post (ret a) Q := by
  intro s r hr
  simp only [Run.ret, Option.some.injEq] at hr
  rw [← hr]; exact h

theorem Post.fail {Q : α → Prop} : Post (fail : Run α) Q := by intro s r hr; simp [Run.fail] at hr

theorem Post.bind {m : Run α} {f : α → Run β} {P : α → Prop} {Q : β → Prop} (hm : Post m P) (hf : ∀ a, P a → Post (f a) Q) : Post (bind m f) Q := by
  intro s r hr
  simp only [Run.bind, Option.bind_eq_some_iff] at hr
  obtain ⟨x, hx, hr⟩ := hr
  exact hf x.1 (hm s x hx) x.2 r hr

theorem Post.lift {o : Option α} {Q : α → Prop} (h : ∀ a, o = some a → Q a) : Post (lift o) Q := by
  cases o with
  | none => exact Post.fail
  | some a => exact Post.ret (h a rfl)

theorem Post.mono {m : Run α} {P Q : α → Prop} (hm : Post m P) (h : ∀ a, P a → Q a) : Post m Q := fun s r hr => h _ (hm s r hr)

theorem Post.and {m : Run α} {P Q : α → Prop} (hm : Post m P) (h : Post m Q) : Post m fun a => P a ∧ Q a := fun s r hr => ⟨hm s r hr, h s r hr⟩

theorem Post.ite {c : Prop} [Decidable c] {m m' : Run α} {Q : α → Prop} (h : c → Post m Q) (h' : ¬ c → Post m' Q) : Post (if c then m else m') Q := by
  split
  · exact h ‹_›
  · exact h' ‹_›

/-- every run of `m` is a run of `m'` -/
def Sub (m m' : Run α) : Prop := ∀ s r, m s = some r → m' s = some r

theorem Sub.refl (m : Run α) : Sub m m := fun _ _ h => h
theorem Sub.fail (m : Run α) : Sub fail m := by intro s r hr; simp [Run.fail] at hr
theorem Sub.bind {m m' : Run α} {f f' : α → Run β} (h : Sub m m') (hf : ∀ a, Sub (f a) (f' a)) : Sub (Run.bind m f) (Run.bind m' f') := by
  intro s r hr
  simp only [Run.bind, Option.bind_eq_some_iff] at hr ⊢
  obtain ⟨x, hx, hr⟩ := hr
  exact ⟨x, h _ _ hx, hf _ _ _ hr⟩
theorem Sub.ite {c : Prop} [Decidable c] {a a' b b' : Run α} (h : Sub a a') (h' : Sub b b') : Sub (if c then a else b) (if c then a' else b') := by
  split
  · exact h
  · exact h'

end Run
end CLPoly
