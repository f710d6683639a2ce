import Verif.Mono.Objects

/-!
# Property C112: histories of monomial objects

`MonoObj.run vc s ops` is the store after the calls `ops`, `none` if one of them fails an assertion or is undefined.  `vc c` is the order of variables that the order object `c` stands for.
-/

namespace CLPoly
open Mono MonoObj

variable {O : Type _} [DecidableEq O] {vc : O → Var → Var → Bool}

/-- whatever is called, in whatever sequence, unless something is written through a reference, `resize` or `deg()`: the degree every object answers is the sum of its exponents -/
theorem C112_degree {s s' : Store O} {ops : List (Op O)} (hw : ∀ op ∈ ops, op.writes = false) (h0 : ∀ a, (s a).deg = ((s a).data.map Prod.snd).sum) (e : run vc s ops = some s') (a : ℕ) :
    (s' a).deg = ((s' a).data.map Prod.snd).sum := run_deg vc ops hw h0 e a

/-- hence at every moment of such a history `==` (which compares the vectors and the degrees) is equality of the vectors -/
theorem C112_equality {s s' : Store O} {ops : List (Op O)} (hw : ∀ op ∈ ops, op.writes = false) (h0 : ∀ a, (s a).deg = ((s a).data.map Prod.snd).sum) (e : run vc s ops = some s') (a b : ℕ) :
    Mono.beq ⟨(s' a).data, (s' a).deg⟩ ⟨(s' b).data, (s' b).deg⟩ = true ↔ (s' a).data = (s' b).data := by
  rw [beq_iff]
  refine ⟨fun h => congrArg Mono.data h, fun h => ?_⟩
  rw [C112_degree hw h0 e a, C112_degree hw h0 e b, h]

/-- careful histories keep normal forms: the variables of every object are in its order and no exponent is 0 -/
theorem C112_normal (hv : ∀ c, VarOrd (vc c)) {s s' : Store O} {ops : List (Op O)} (hc : CarefulRun vc s ops)
    (h0 : ∀ a, (s a).data.Pairwise (fun x y => vc (s a).ord x.1 y.1 = true) ∧ ∀ x ∈ (s a).data, x.2 ≠ 0) (e : run vc s ops = some s') (a : ℕ) :
    (s' a).data.Pairwise (fun x y => vc (s' a).ord x.1 y.1 = true) ∧ ∀ x ∈ (s' a).data, x.2 ≠ 0 := run_normal vc hv ops hc h0 e a

/-- then two objects with the same order are `==` exactly when they are the same power product -/
theorem C112_same (hv : ∀ c, VarOrd (vc c)) {s s' : Store O} {ops : List (Op O)} (hc : CarefulRun vc s ops) (hw : ∀ op ∈ ops, op.writes = false)
    (h0 : ∀ a, (s a).data.Pairwise (fun x y => vc (s a).ord x.1 y.1 = true) ∧ ∀ x ∈ (s a).data, x.2 ≠ 0) (hd : ∀ a, (s a).deg = ((s a).data.map Prod.snd).sum)
    (e : run vc s ops = some s') {a b : ℕ} (ho : (s' a).ord = (s' b).ord) :
    Mono.beq ⟨(s' a).data, (s' a).deg⟩ ⟨(s' b).data, (s' b).deg⟩ = true ↔ ∀ v, E (s' a).data v = E (s' b).data v := by
  rw [C112_equality hw hd e a b]
  refine ⟨fun h v => by rw [h], fun h => ?_⟩
  have ha := C112_normal hv hc h0 e a
  have hb := C112_normal hv hc h0 e b
  rw [← ho] at hb
  exact E_inj (hv _) ⟨ha.1, ha.2⟩ ⟨hb.1, hb.2⟩ h

/-- what a call changes: `x_k = x_i * x_j` adds the exponents, `x_k = x_i / x_j` subtracts them, and takes the order of `x_i`; all other objects stay (`k` may be `i` or `j`) -/
theorem C112_mul {s s' : Store O} {k i j : ℕ} (e : step vc s (.mul k i j) = some s') :
    (s i).ord = (s j).ord ∧ (∀ v, E (s' k).data v = E (s i).data v + E (s j).data v) ∧ (s' k).ord = (s i).ord ∧ ∀ a, a ≠ k → s' a = s a := by
  simp only [step] at e
  split at e
  · rename_i h
    obtain rfl := Option.some.inj e
    refine ⟨h, fun v => ?_, ?_, fun a ha => Function.update_of_ne ha _ _⟩
    · rw [Function.update_self, E_pvAdd]
    · rw [Function.update_self]
  · simp at e

theorem C112_div {s s' : Store O} {k i j : ℕ} (e : step vc s (.div k i j) = some s') :
    (s i).ord = (s j).ord ∧ (∀ v, E (s' k).data v = E (s i).data v - E (s j).data v) ∧ (s' k).ord = (s i).ord ∧ ∀ a, a ≠ k → s' a = s a := by
  simp only [step] at e
  split at e
  · rename_i h
    obtain rfl := Option.some.inj e
    refine ⟨h, fun v => ?_, ?_, fun a ha => Function.update_of_ne ha _ _⟩
    · rw [Function.update_self, E_pvSub]
    · rw [Function.update_self]
  · simp at e

/-- the calls that put a monomial together: from a variable, by pushing and popping, by clearing -/
theorem C112_build {s s' : Store O} {i : ℕ} :
    (∀ v, step vc s (.setVar i v) = some s' → (∀ w, E (s' i).data w = if w = v then 1 else 0) ∧ (s' i).ord = (s i).ord ∧ ∀ a, a ≠ i → s' a = s a) ∧
    (∀ x, step vc s (.pushBack i x) = some s' → (∀ w, E (s' i).data w = E (s i).data w + if w = x.1 then x.2 else 0) ∧ (s' i).ord = (s i).ord ∧ ∀ a, a ≠ i → s' a = s a) ∧
    (step vc s (.popBack i) = some s' → (∃ x, (s i).data = (s' i).data ++ [x]) ∧ (s' i).ord = (s i).ord ∧ ∀ a, a ≠ i → s' a = s a) ∧
    (step vc s (.clear i) = some s' → (∀ w, E (s' i).data w = 0) ∧ (s' i).ord = (s i).ord ∧ ∀ a, a ≠ i → s' a = s a) := by
  refine ⟨fun v e => ?_, fun x e => ?_, fun e => ?_, fun e => ?_⟩ <;> simp only [step] at e
  · obtain rfl := Option.some.inj e
    refine ⟨fun w => ?_, by rw [Function.update_self], fun a ha => Function.update_of_ne ha _ _⟩
    rw [Function.update_self, E_cons, E_nil]
    by_cases h : w = v
    · simp [h]
    · simp [h, Ne.symm h]
  · obtain rfl := Option.some.inj e
    refine ⟨fun w => ?_, by rw [Function.update_self], fun a ha => Function.update_of_ne ha _ _⟩
    rw [Function.update_self]
    simp only
    induction (s i).data with
    | nil => 
      rw [List.nil_append, E_cons, E_nil]
      by_cases h : w = x.1
      · simp [h]
      · simp [h, Ne.symm h]
    | cons y d ih => rw [List.cons_append, E_cons, E_cons, ih]; ring
  · split at e
    · simp at e
    · rename_i x hx
      obtain rfl := Option.some.inj e
      obtain ⟨l, hl⟩ := List.getLast?_eq_some_iff.1 hx
      refine ⟨⟨x, ?_⟩, by rw [Function.update_self], fun a ha => Function.update_of_ne ha _ _⟩
      rw [Function.update_self, hl]; simp
  · obtain rfl := Option.some.inj e
    refine ⟨fun w => ?_, by rw [Function.update_self], fun a ha => Function.update_of_ne ha _ _⟩
    rw [Function.update_self, E_nil]

/-- copying gives the same object and leaves the source, moving leaves the monomial `1` in its place, swapping exchanges (also for an object and itself) -/
theorem C112_assign {s s' : Store O} {i j : ℕ} :
    (step vc s (.copy i j) = some s' → s' i = s j ∧ ∀ a, a ≠ i → s' a = s a) ∧
    (step vc s (.move i j) = some s' → s' i = s j ∧ (i ≠ j → s' j = ⟨[], 0, (s j).ord⟩) ∧ ∀ a, a ≠ i → a ≠ j → s' a = s a) ∧
    (step vc s (.swap i j) = some s' → s' i = s j ∧ s' j = s i ∧ ∀ a, a ≠ i → a ≠ j → s' a = s a) := by
  refine ⟨fun e => ?_, fun e => ?_, fun e => ?_⟩ <;> simp only [step] at e
  · obtain rfl := Option.some.inj e
    exact ⟨Function.update_self .., fun a ha => Function.update_of_ne ha _ _⟩
  · by_cases h : i = j
    · rw [if_pos h] at e
      obtain rfl := Option.some.inj e
      exact ⟨by rw [h], fun h' => absurd h h', fun _ _ _ => rfl⟩
    · rw [if_neg h] at e
      obtain rfl := Option.some.inj e
      refine ⟨?_, fun _ => Function.update_self .., fun a ha hb => ?_⟩
      · rw [Function.update_of_ne h, Function.update_self]
      · rw [Function.update_of_ne hb, Function.update_of_ne ha]
  · obtain rfl := Option.some.inj e
    refine ⟨?_, Function.update_self .., fun a ha hb => ?_⟩
    · by_cases h : i = j
      · subst h; rw [Function.update_self]
      · rw [Function.update_of_ne h, Function.update_self]
    · rw [Function.update_of_ne hb, Function.update_of_ne ha]

/-- `normalization()` and the assignment of a list of pairs: the object becomes the power product the list denotes, in order, with the right degree — whatever the object was before -/
theorem C112_normalization (hv : ∀ c, VarOrd (vc c)) {s s' : Store O} {i : ℕ} {d : List (Var × Int)} {op : Op O}
    (hop : (op = .normalization i ∧ d = (s i).data) ∨ op = .setData i d) (e : step vc s op = some s') :
    (∀ v, E (s' i).data v = E d v) ∧ (s' i).data.Pairwise (fun x y => vc (s' i).ord x.1 y.1 = true) ∧ ((∀ x ∈ d, 0 ≤ x.2) → ∀ x ∈ (s' i).data, 0 < x.2) ∧
    (s' i).deg = ((s' i).data.map Prod.snd).sum ∧ (s' i).ord = (s i).ord ∧ ∀ a, a ≠ i → s' a = s a := by
  obtain ⟨o, ho⟩ : ∃ o : Obj O, o.ord = (s i).ord ∧ o.data = d ∧ s' = Function.update s i (normalized vc o) := by
    rcases hop with ⟨rfl, rfl⟩ | rfl
    · exact ⟨s i, rfl, rfl, (Option.some.inj e).symm⟩
    · exact ⟨⟨d, (s i).deg, (s i).ord⟩, rfl, rfl, (Option.some.inj e).symm⟩
  obtain ⟨h1, h2, rfl⟩ := ho
  rw [Function.update_self, ← h2, ← h1]
  refine ⟨fun v => ?_, normalize_sorted (hv o.ord) o.data, fun h => (normalize_valid (hv o.ord) o.data h).pos, rfl, rfl, fun a ha => Function.update_of_ne ha _ _⟩
  exact congrFun (E_normalize (vc := vc o.ord) o.data) v

/-- `re_deg()` repairs the degree -/
theorem C112_repair {s s' : Store O} {i : ℕ} (e : step vc s (.reDeg i) = some s') :
    (s' i).data = (s i).data ∧ (s' i).deg = ((s i).data.map Prod.snd).sum ∧ (s' i).ord = (s i).ord ∧ ∀ a, a ≠ i → s' a = s a := by
  obtain rfl := Option.some.inj e
  exact ⟨by rw [Function.update_self], by rw [Function.update_self]; rfl, by rw [Function.update_self], fun a ha => Function.update_of_ne ha _ _⟩

/-! ## what is refuted -/

/-- refuted without the hypothesis: after `x = v; x.resize(0)` the object is empty but its degree is 1 and it is not `==` to the monomial `1` -/
theorem C112_refuted_resize : ∃ s', run (fun _ : Unit => varLess) (fun _ => ⟨[], 0, ()⟩) [.setVar 0 7, .resize 0 0] = some s' ∧
    (s' 0).data = [] ∧ (s' 0).deg = 1 ∧ Mono.beq ⟨(s' 0).data, (s' 0).deg⟩ Mono.one = false :=
  ⟨_, rfl, by decide +kernel, by decide +kernel, by decide +kernel⟩

/-- refuted without the hypothesis: after `x = v; x.front().second = 3` the degree is still 1, and the object is not `==` to the monomial that is built as `v^3` -/
theorem C112_refuted_reference : ∃ s', run (fun _ : Unit => varLess) (fun _ => ⟨[], 0, ()⟩) [.setVar 0 7, .setAt 0 0 (7, 3), .setData 1 [(7, 3)]] = some s' ∧
    (s' 0).data = (s' 1).data ∧ (s' 0).deg = 1 ∧ (s' 1).deg = 3 ∧ Mono.beq ⟨(s' 0).data, (s' 0).deg⟩ ⟨(s' 1).data, (s' 1).deg⟩ = false :=
  ⟨_, rfl, by decide +kernel, by decide +kernel, by decide +kernel, by decide +kernel⟩

/-- refuted without care: list data whose exponents cancel keeps the pair with exponent 0 -/
theorem C112_refuted_cancel : ∃ s', run (fun _ : Unit => varLess) (fun _ => ⟨[], 0, ()⟩) [.setData 0 [(7, 2), (7, -2)]] = some s' ∧ (s' 0).data = [(7, 0)] :=
  ⟨_, rfl, by decide +kernel⟩

/-! ## a history -/

/-- `x0 = a; x1 = {b^2, a}; x2 = x0 * x1; x0 = move(x2); x0.push_back(c^4); swap(x0, x1); x1.pop_back(); x3 = x1 / x0` -/
def exampleHistory : List (Op Unit) :=
  [.setVar 0 1, .setData 1 [(2, 2), (1, 1)], .mul 2 0 1, .move 0 2, .pushBack 0 (3, 4), .swap 0 1, .popBack 1, .div 3 1 0]

example : ∀ op ∈ exampleHistory, op.writes = false := by decide
example : (run (fun _ : Unit => varLess) (fun _ => ⟨[], 0, ()⟩) exampleHistory).map (fun s => (s 0, s 1, s 2, s 3)) =
    some (⟨[(1, 1), (2, 2)], 3, ()⟩, ⟨[(1, 2), (2, 2)], 4, ()⟩, ⟨[], 0, ()⟩, ⟨[(1, 1)], 1, ()⟩) := by decide +kernel

instance (s : Store O) (op : Op O) : Decidable (Careful vc s op) := by
  cases op <;> unfold Careful <;> infer_instance

instance decCarefulRun : ∀ (ops : List (Op O)) (s : Store O), Decidable (CarefulRun vc s ops)
  | [], _ => isTrue trivial
  | op :: ops, s => @instDecidableAnd _ _ inferInstance <|
    match h : step vc s op with
    | none => isTrue fun s' e => by simp at e
    | some s1 => @decidable_of_iff _ (CarefulRun vc s1 ops) (by simp) (decCarefulRun ops s1)

example : CarefulRun (fun _ : Unit => varLess) (fun _ => ⟨[], 0, ()⟩) exampleHistory := by decide +kernel
example : ∀ _ : Unit, VarOrd varLess := fun _ => varLess_ord

end CLPoly
