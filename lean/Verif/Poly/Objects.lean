import Verif.Poly.ScalarSpec
import Verif.Poly.PowSpec

/-! # Polynomial objects and their histories (/repo/clpoly/basic_polynomial.hh, polynomial_.hh)

A store of `basic_polynomial` objects, each with its terms and its order object.  The pointers to order objects inside the monomials are not modelled. -/

namespace CLPoly
open Mono MvPolynomial
namespace PolyObj

/-- basic_polynomial.hh 23–25: an object.  The pointer `__comp` is a name for the order; two pointers to equal orders have the same name (basic.hh 54–58 `comp_consistent`). -/
structure Obj (O R : Type _) where
  data : PV Mono R
  ord : O
deriving DecidableEq

/-- the objects, by address -/
abbrev Store (O R : Type _) := ℕ → Obj O R

/-- the calls -/
inductive Op (O R : Type _) where
  /-- basic_polynomial.hh 38–40: constructor of the zero polynomial (38: with the default order) -/
  | new (i : ℕ) (c : O)
  /-- basic_polynomial.hh 105–125: assignment of a list or vector of terms (also 51–65, the constructors, after `new`) -/
  | setData (i : ℕ) (d : PV Mono R)
  /-- assignment of the result `d` of some other function of the library, with the order `c` -/
  | result (i : ℕ) (c : O) (d : PV Mono R)
  /-- basic_polynomial.hh 85–93, 41–45 -/
  | copy (i j : ℕ)
  /-- basic_polynomial.hh 95–103, 46–50.  The vector that was moved from is empty in the C++ libraries. -/
  | move (i j : ℕ)
  /-- basic_polynomial.hh 172–179 -/
  | swap (i j : ℕ)
  /-- basic_polynomial.hh 166–170 -/
  | clear (i : ℕ)
  /-- basic_polynomial.hh 161 `comp(c)` -/
  | setComp (i : ℕ) (c : O)
  /-- basic_polynomial.hh 147–148 -/
  | pushBack (i : ℕ) (t : Mono × R)
  /-- basic_polynomial.hh 216–226 -/
  | normalization (i : ℕ)
  /-- basic_polynomial.hh 228–242: `x_k = x_i + x_j` -/
  | add (k i j : ℕ)
  /-- basic_polynomial.hh 244–258: `x_k = x_i - x_j` -/
  | sub (k i j : ℕ)
  /-- basic_polynomial.hh 265–271: `x_k = -x_i` -/
  | neg (k i : ℕ)
  /-- basic_polynomial.hh 273–287: `x_k = x_i * x_j` -/
  | mul (k i j : ℕ)
  /-- polynomial_.hh 38–67: `x_k = pow(x_i, n)` -/
  | pow (k i n : ℕ)
  /-- polynomial_.hh 221–230: `x_k = x_i * c` for a coefficient `c`; for `c = 0` the result has the default order -/
  | scale (k i : ℕ) (c : R)
  /-- polynomial_.hh 179–186: `x_k = x_i + c` for a coefficient `c` (147–152, 159–163: with `-c` for a difference) -/
  | addConst (k i : ℕ) (c : R)
  /-- polynomial_.hh 193–200: `x_k = x_i + m` for a monomial `m` -/
  | addMono (k i : ℕ) (m : Mono)
  /-- polynomial_.hh 212–220: `x_k = x_i - m` for a monomial `m` -/
  | subMono (k i : ℕ) (m : Mono)

section
variable {O : Type _} [DecidableEq O] {R : Type _} [CommRing R] [DecidableEq R]
variable (vc : O → Var → Var → Bool) (C : O → OrderCode R) (dflt : O)

/-- the effect of a call (lines at the constructors of `Op`).  `none`: a failed assertion. -/
def step (s : Store O R) : Op O R → Option (Store O R)
  | .new i c => some (Function.update s i ⟨[], c⟩)
  | .setData i d => some (Function.update s i ⟨polyNormalize (vc (s i).ord) (C (s i).ord).mc d, (s i).ord⟩)
  | .result i c d => some (Function.update s i ⟨d, c⟩)
  | .copy i j => some (Function.update s i (s j))
  | .move i j => some (if i = j then s else Function.update (Function.update s i (s j)) j ⟨[], (s j).ord⟩)
  | .swap i j => some (if i = j then s else Function.update (Function.update s i (s j)) j (s i))
  | .clear i => some (Function.update s i ⟨[], (s i).ord⟩)
  | .setComp i c => some (Function.update s i ⟨(s i).data, c⟩)
  | .pushBack i t => some (Function.update s i ⟨(s i).data ++ [t], (s i).ord⟩)
  | .normalization i => some (Function.update s i ⟨polyNormalize (vc (s i).ord) (C (s i).ord).mc (s i).data, (s i).ord⟩)
  | .add k i j => if (s i).ord = (s j).ord then some (Function.update s k ⟨pvAdd (C (s i).ord).mc (s i).data (s j).data, (s i).ord⟩) else none
  | .sub k i j => if (s i).ord = (s j).ord then some (Function.update s k ⟨pvSub (C (s i).ord).mc (s i).data (s j).data, (s i).ord⟩) else none
  | .neg k i => some (Function.update s k ⟨pvNeg (s i).data, (s i).ord⟩)
  | .mul k i j =>
    if (s i).ord = (s j).ord then (polyMul (vc (s i).ord) (C (s i).ord) (s i).data (s j).data).map fun d => Function.update s k ⟨d, (s i).ord⟩ else none
  | .pow k i n => (polyPow (vc (s i).ord) (C (s i).ord) (s i).data n).map fun d => Function.update s k ⟨d, (s i).ord⟩
  | .scale k i c => some (Function.update s k ⟨polyScale (vc (s i).ord) (C (s i).ord).mc (s i).data c, if c = 0 then dflt else (s i).ord⟩)
  | .addConst k i c => (polyAddConst (s i).data c).map fun d => Function.update s k ⟨d, (s i).ord⟩
  | .addMono k i m => some (Function.update s k ⟨polyAddMono (C (s i).ord).mc (s i).data m 1, (s i).ord⟩)
  | .subMono k i m => some (Function.update s k ⟨polyAddMono (C (s i).ord).mc (s i).data m (-1), (s i).ord⟩)

/-- a history -/
def run (s : Store O R) : List (Op O R) → Option (Store O R)
  | [] => some s
  | op :: ops => (step vc C dflt s op).bind fun s' => run s' ops

/-- what the objects stand for: a polynomial and an order -/
noncomputable def meaning (s : Store O R) : ℕ → MvPolynomial Var R × O := fun a => (val (s a).data, (s a).ord)

/-- what the calls mean: the assignments of a program over the ring of polynomials -/
noncomputable def spec (ρ : ℕ → MvPolynomial Var R × O) : Op O R → (ℕ → MvPolynomial Var R × O)
  | .new i c => Function.update ρ i (0, c)
  | .setData i d => Function.update ρ i (val d, (ρ i).2)
  | .result i c d => Function.update ρ i (val d, c)
  | .copy i j => Function.update ρ i (ρ j)
  | .move i j => if i = j then ρ else Function.update (Function.update ρ i (ρ j)) j (0, (ρ j).2)
  | .swap i j => Function.update (Function.update ρ i (ρ j)) j (ρ i)
  | .clear i => Function.update ρ i (0, (ρ i).2)
  | .setComp i c => Function.update ρ i ((ρ i).1, c)
  | .pushBack i t => Function.update ρ i ((ρ i).1 + monomial (expo t.1) t.2, (ρ i).2)
  | .normalization _ => ρ
  | .add k i j => Function.update ρ k ((ρ i).1 + (ρ j).1, (ρ i).2)
  | .sub k i j => Function.update ρ k ((ρ i).1 - (ρ j).1, (ρ i).2)
  | .neg k i => Function.update ρ k (-(ρ i).1, (ρ i).2)
  | .mul k i j => Function.update ρ k ((ρ i).1 * (ρ j).1, (ρ i).2)
  | .pow k i n => Function.update ρ k ((ρ i).1 ^ n, (ρ i).2)
  | .scale k i c => Function.update ρ k ((ρ i).1 * MvPolynomial.C c, if c = 0 then dflt else (ρ i).2)
  | .addConst k i c => Function.update ρ k ((ρ i).1 + MvPolynomial.C c, (ρ i).2)
  | .addMono k i m => Function.update ρ k ((ρ i).1 + monomial (expo m) 1, (ρ i).2)
  | .subMono k i m => Function.update ρ k ((ρ i).1 - monomial (expo m) 1, (ρ i).2)

/-- the program over the ring of polynomials -/
noncomputable def specRun (ρ : ℕ → MvPolynomial Var R × O) : List (Op O R) → (ℕ → MvPolynomial Var R × O)
  | [] => ρ
  | op :: ops => specRun (spec dflt ρ op) ops

/-- the calls of a careful user.  `Fit c f g`: the product of `f` and `g` does not exceed the packing capacity, `PFit c f n`: the power. -/
def Careful (Fit : O → MvPolynomial Var R → MvPolynomial Var R → Prop) (PFit : O → MvPolynomial Var R → ℕ → Prop) (s : Store O R) : Op O R → Prop
  | .setData _ d => (∀ t ∈ d, ∀ x ∈ t.1.data, 0 ≤ x.2) ∧ ∀ t ∈ d, t.2 ≠ 0 → coeff (expo t.1) (val d) ≠ 0
  | .result _ c d => PolyOK (vc c) (C c).mc d
  | .setComp i c => PolyOK (vc c) (C c).mc (s i).data
  | .pushBack i t => Valid (vc (s i).ord) t.1 ∧ t.2 ≠ 0 ∧ ∀ y ∈ (s i).data, (C (s i).ord).mc y.1 t.1 = true
  | .add _ i j => (s i).ord = (s j).ord
  | .sub _ i j => (s i).ord = (s j).ord
  | .mul _ i j => (s i).ord = (s j).ord ∧ Fit (s i).ord (val (s i).data) (val (s j).data)
  | .pow _ i n => PFit (s i).ord (val (s i).data) n
  | .addConst _ i c => (s i).data ≠ [] ∧ coeff 0 (val (s i).data) + c ≠ 0
  | .addMono _ i m => Valid (vc (s i).ord) m
  | .subMono _ i m => Valid (vc (s i).ord) m
  | _ => True

/-- careful all along a history -/
def CarefulRun (Fit : O → MvPolynomial Var R → MvPolynomial Var R → Prop) (PFit : O → MvPolynomial Var R → ℕ → Prop) : Store O R → List (Op O R) → Prop
  | _, [] => True
  | s, op :: ops => Careful vc C Fit PFit s op ∧ ∀ s', step vc C dflt s op = some s' → CarefulRun Fit PFit s' ops
end

section
variable {O : Type*} [DecidableEq O] {R : Type*} [CommRing R] [DecidableEq R]
variable {vc : O → Var → Var → Bool} {C : O → OrderCode R} {dflt : O}
variable {Fit : O → MvPolynomial Var R → MvPolynomial Var R → Prop} {PFit : O → MvPolynomial Var R → ℕ → Prop}

/-- all objects canonical -/
def AllOK (vc : O → Var → Var → Bool) (C : O → OrderCode R) (s : Store O R) : Prop := ∀ a, PolyOK (vc (s a).ord) (C (s a).ord).mc (s a).data

theorem AllOK.update {s : Store O R} (h : AllOK vc C s) {i : ℕ} {o : Obj O R} (ho : PolyOK (vc o.ord) (C o.ord).mc o.data) : AllOK vc C (Function.update s i o) := by
  intro a
  by_cases e : a = i
  · subst e; rw [Function.update_self]; exact ho
  · rw [Function.update_of_ne e]; exact h a

theorem meaning_update (s : Store O R) (i : ℕ) (o : Obj O R) : meaning (Function.update s i o) = Function.update (meaning s) i (val o.data, o.ord) := by
  funext a
  by_cases e : a = i
  · subst e; simp [meaning]
  · simp [meaning, e]

theorem step_spec [NoZeroDivisors R] [Nontrivial R] (M : ∀ c, MonoOrd (vc c) (C c).mc)
    (hm : ∀ c p q, PolyOK (vc c) (C c).mc p → PolyOK (vc c) (C c).mc q → Fit c (val p) (val q) → ∃ out, polyMul (vc c) (C c) p q = some out ∧ PolyOK (vc c) (C c).mc out ∧ val out = val p * val q)
    (hw : ∀ c p n, PolyOK (vc c) (C c).mc p → PFit c (val p) n → ∃ out, polyPow (vc c) (C c) p n = some out ∧ PolyOK (vc c) (C c).mc out ∧ val out = val p ^ n)
    {s : Store O R} (h : AllOK vc C s) {op : Op O R} (hc : Careful vc C Fit PFit s op) :
    ∃ s', step vc C dflt s op = some s' ∧ AllOK vc C s' ∧ meaning s' = spec dflt (meaning s) op := by
  cases op
  case new i c => exact ⟨_, rfl, h.update .nil, by rw [meaning_update]; rfl⟩
  case setData i d =>
    obtain ⟨h1, h2⟩ := hc
    have hs := sortResult_merge (M (s i).ord) (firstNormalize_valid (M (s i).ord).vo h1)
    refine ⟨_, rfl, h.update ((polyNormalize_ok_iff (M (s i).ord) h1 hs).2 h2), ?_⟩
    rw [meaning_update]
    simp only [(polyNormalize_spec (M (s i).ord) h1).2.1]; rfl
  case result i c d => exact ⟨_, rfl, h.update hc, by rw [meaning_update]; rfl⟩
  case copy i j => exact ⟨_, rfl, h.update (h j), by rw [meaning_update]; rfl⟩
  case move i j =>
    by_cases e : i = j
    · exact ⟨s, by simp [step, e], h, by simp [spec, e]⟩
    · refine ⟨Function.update (Function.update s i (s j)) j ⟨[], (s j).ord⟩, by simp only [step, if_neg e], (h.update (h j)).update .nil, ?_⟩
      rw [meaning_update, meaning_update]; simp only [spec, if_neg e]; rfl
  case swap i j =>
    by_cases e : i = j
    · refine ⟨s, by simp [step, e], h, ?_⟩
      subst e; simp [spec]
    · refine ⟨Function.update (Function.update s i (s j)) j (s i), by simp only [step, if_neg e], (h.update (h j)).update (h i), ?_⟩
      rw [meaning_update, meaning_update]; rfl
  case clear i => exact ⟨_, rfl, h.update .nil, by rw [meaning_update]; rfl⟩
  case setComp i c => exact ⟨_, rfl, h.update hc, by rw [meaning_update]; rfl⟩
  case pushBack i t =>
    obtain ⟨h1, h2, h3⟩ := hc
    refine ⟨_, rfl, h.update ⟨fun u hu => ?_, ?_, fun u hu => ?_⟩, ?_⟩
    · rcases List.mem_append.1 hu with hu | hu
      · exact (h i).monos u hu
      · rw [List.mem_singleton] at hu; rw [hu]; exact h1
    · refine List.pairwise_append.2 ⟨(h i).canon.1, List.pairwise_singleton _ _, fun a ha b hb => ?_⟩
      rw [List.mem_singleton] at hb; rw [hb]; exact h3 a ha
    · rcases List.mem_append.1 hu with hu | hu
      · exact (h i).canon.2 u hu
      · rw [List.mem_singleton] at hu; rw [hu]; exact h2
    · rw [meaning_update]
      simp only [val_append, val_cons, val_nil, add_zero]; rfl
  case normalization i =>
    refine ⟨s, ?_, h, rfl⟩
    simp only [step, Option.some.injEq]
    rw [polyNormalize_id (M (s i).ord) (h i)]
    exact Function.update_eq_self i s
  case add k i j =>
    have hj := h j
    rw [← show (s i).ord = (s j).ord from hc] at hj
    refine ⟨_, if_pos hc, h.update ((h i).add (M _) hj), ?_⟩
    rw [meaning_update]; simp only [val_pvAdd]; rfl
  case sub k i j =>
    have hj := h j
    rw [← show (s i).ord = (s j).ord from hc] at hj
    refine ⟨_, if_pos hc, h.update ((h i).sub (M _) hj), ?_⟩
    rw [meaning_update]; simp only [val_pvSub]; rfl
  case neg k i => exact ⟨_, rfl, h.update (h i).neg, by rw [meaning_update]; simp only [val_pvNeg]; rfl⟩
  case mul k i j =>
    have hj := h j
    rw [← hc.1] at hj
    obtain ⟨out, h1, h2, h3⟩ := hm _ _ _ (h i) hj hc.2
    refine ⟨Function.update s k ⟨out, (s i).ord⟩, ?_, h.update h2, ?_⟩
    · simp only [step, if_pos hc.1, h1, Option.map_some]
    · rw [meaning_update]; simp only [h3]; rfl
  case pow k i n =>
    obtain ⟨out, h1, h2, h3⟩ := hw _ _ _ (h i) hc
    refine ⟨Function.update s k ⟨out, (s i).ord⟩, ?_, h.update h2, ?_⟩
    · simp only [step, h1, Option.map_some]
    · rw [meaning_update]; simp only [h3]; rfl
  case scale k i c =>
    obtain ⟨h1, h2⟩ := polyScale_spec (M (s i).ord) (h i) c
    refine ⟨_, rfl, h.update ?_, ?_⟩
    · by_cases e : c = 0
      · subst e
        simp only [polyScale, if_true]; exact .nil
      · simp only [if_neg e]; exact h1
    · rw [meaning_update]; simp only [h2]; rfl
  case addConst k i c =>
    obtain ⟨out, h1, h2, h3, -⟩ := polyAddConst_spec (M (s i).ord) (h i) hc.1 c
    refine ⟨Function.update s k ⟨out, (s i).ord⟩, ?_, h.update (h3 fun d hd => hd ▸ hc.2), ?_⟩
    · simp only [step, h1, Option.map_some]
    · rw [meaning_update]; simp only [h2]; rfl
  case addMono k i m =>
    obtain ⟨h1, h2⟩ := polyAddMono_spec (M (s i).ord) (h i) hc (one_ne_zero (α := R))
    refine ⟨_, rfl, h.update h1, ?_⟩
    rw [meaning_update]; simp only [h2]; rfl
  case subMono k i m =>
    obtain ⟨h1, h2⟩ := polyAddMono_spec (M (s i).ord) (h i) hc (c := (-1 : R)) (neg_ne_zero.2 one_ne_zero)
    rw [map_neg, ← sub_eq_add_neg] at h2
    refine ⟨_, rfl, h.update h1, ?_⟩
    rw [meaning_update]; simp only [h2]; rfl

theorem run_spec [NoZeroDivisors R] [Nontrivial R] (M : ∀ c, MonoOrd (vc c) (C c).mc)
    (hm : ∀ c p q, PolyOK (vc c) (C c).mc p → PolyOK (vc c) (C c).mc q → Fit c (val p) (val q) → ∃ out, polyMul (vc c) (C c) p q = some out ∧ PolyOK (vc c) (C c).mc out ∧ val out = val p * val q)
    (hw : ∀ c p n, PolyOK (vc c) (C c).mc p → PFit c (val p) n → ∃ out, polyPow (vc c) (C c) p n = some out ∧ PolyOK (vc c) (C c).mc out ∧ val out = val p ^ n)
    (ops : List (Op O R)) : ∀ {s : Store O R}, AllOK vc C s → CarefulRun vc C dflt Fit PFit s ops →
      ∃ s', run vc C dflt s ops = some s' ∧ AllOK vc C s' ∧ meaning s' = specRun dflt (meaning s) ops := by
  induction ops with
  | nil => intro s h _; exact ⟨s, rfl, h, rfl⟩
  | cons op ops ih =>
    intro s h hc
    obtain ⟨s1, e1, h1, m1⟩ := step_spec (dflt := dflt) M hm hw h hc.1
    obtain ⟨s2, e2, h2, m2⟩ := ih h1 (hc.2 s1 e1)
    exact ⟨s2, by rw [run, e1]; exact e2, h2, by rw [m2, m1]; rfl⟩
end

end PolyObj
end CLPoly
