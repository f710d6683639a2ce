import Verif.Mono.Ops

/-! # Monomial objects and their histories (/repo/clpoly/basic_monomial.hh)

A store of `basic_monomial` objects, each with its data, its cached degree and its order, changed by the public member functions. -/

namespace CLPoly
open Mono
namespace MonoObj

/-- basic_monomial.hh 26–28: an object.  The pointer `__comp` is a name for the order; two pointers to equal orders have the same name. -/
structure Obj (O : Type _) where
  data : List (Var × Int)
  deg : Int
  ord : O
deriving DecidableEq

/-- the objects, by address -/
abbrev Store (O : Type _) := ℕ → Obj O

/-- the calls -/
inductive Op (O : Type _) where
  /-- basic_monomial.hh 64–65: constructor of the monomial `1` at a new address (64: with the default order) -/
  | new (i : ℕ) (c : O)
  /-- basic_monomial.hh 70–72: constructor from a variable; `c` is the default order -/
  | newVar (i : ℕ) (v : Var) (c : O)
  /-- basic_monomial.hh 94–99 `operator=(variable)` -/
  | setVar (i : ℕ) (v : Var)
  /-- basic_monomial.hh 100–108 `operator=(const &)`, 66–68 the copy constructor -/
  | copy (i j : ℕ)
  /-- basic_monomial.hh 109–118 `operator=(&&)`, 73–77 the move constructor -/
  | move (i j : ℕ)
  /-- basic_monomial.hh 119–136: assignment of a list or vector of pairs (also 78–92, the constructors, after `new`) -/
  | setData (i : ℕ) (d : List (Var × Int))
  /-- basic_monomial.hh 152–159 -/
  | pushBack (i : ℕ) (x : Var × Int)
  /-- basic_monomial.hh 151 -/
  | popBack (i : ℕ)
  /-- basic_monomial.hh 172–176 -/
  | clear (i : ℕ)
  /-- basic_monomial.hh 177–182 -/
  | swap (i j : ℕ)
  /-- basic_monomial.hh 53–63 -/
  | normalization (i : ℕ)
  /-- basic_monomial.hh 39–45 -/
  | reDeg (i : ℕ)
  /-- basic_monomial.hh 170 `comp(c)` -/
  | setComp (i : ℕ) (c : O)
  /-- basic_monomial.hh 183–198: `x_k = x_i * x_j` -/
  | mul (k i j : ℕ)
  /-- basic_monomial.hh 199–213: `x_k = x_i / x_j` -/
  | div (k i j : ℕ)
  /-- basic_monomial.hh 149 `resize` -/
  | resize (i n : ℕ)
  /-- basic_monomial.hh 139–147, 160–165: writing through `begin()`, `front()`, `back()`, `[]`, `at`, `data()` -/
  | setAt (i k : ℕ) (x : Var × Int)
  /-- basic_monomial.hh 38: writing through `deg()` -/
  | setDeg (i : ℕ) (d : Int)

variable {O : Type _} [DecidableEq O] (vc : O → Var → Var → Bool)

/-- basic_monomial.hh 53–63 on an object -/
def normalized (o : Obj O) : Obj O := ⟨(normalize (vc o.ord) o.data).data, sumDeg (normalize (vc o.ord) o.data).data, o.ord⟩

/-- the effect of a call (lines at the constructors of `Op`).  `none`: a failed assertion or undefined behaviour (`pop_back` of an empty object, an index out of range). -/
def step (s : Store O) : Op O → Option (Store O)
  | .new i c => some (Function.update s i ⟨[], 0, c⟩)
  | .newVar i v c => some (Function.update s i ⟨[(v, 1)], 1, c⟩)
  | .setVar i v => some (Function.update s i ⟨[(v, 1)], 1, (s i).ord⟩)
  | .copy i j => some (Function.update s i (s j))
  | .move i j => some (if i = j then s else Function.update (Function.update s i (s j)) j ⟨[], 0, (s j).ord⟩)
  | .setData i d => some (Function.update s i (normalized vc ⟨d, (s i).deg, (s i).ord⟩))
  | .pushBack i x => some (Function.update s i ⟨(s i).data ++ [x], (s i).deg + x.2, (s i).ord⟩)
  | .popBack i =>
    match (s i).data.getLast? with
    | none => none
    | some x => some (Function.update s i ⟨(s i).data.dropLast, (s i).deg - x.2, (s i).ord⟩)
  | .clear i => some (Function.update s i ⟨[], 0, (s i).ord⟩)
  | .swap i j => some (Function.update (Function.update s i (s j)) j (s i))
  | .normalization i => some (Function.update s i (normalized vc (s i)))
  | .reDeg i => some (Function.update s i ⟨(s i).data, sumDeg (s i).data, (s i).ord⟩)
  | .setComp i c => some (Function.update s i ⟨(s i).data, (s i).deg, c⟩)
  | .mul k i j =>
    if (s i).ord = (s j).ord then some (Function.update s k ⟨pvAdd (vc (s i).ord) (s i).data (s j).data, (s i).deg + (s j).deg, (s i).ord⟩) else none
  | .div k i j =>
    if (s i).ord = (s j).ord then some (Function.update s k ⟨pvSub (vc (s i).ord) (s i).data (s j).data, (s i).deg - (s j).deg, (s i).ord⟩) else none
  | .resize i n => some (Function.update s i ⟨(s i).data.take n ++ List.replicate (n - (s i).data.length) (0, 0), (s i).deg, (s i).ord⟩)
  | .setAt i k x => if k < (s i).data.length then some (Function.update s i ⟨(s i).data.set k x, (s i).deg, (s i).ord⟩) else none
  | .setDeg i d => some (Function.update s i ⟨(s i).data, d, (s i).ord⟩)

/-- a history -/
def run (s : Store O) : List (Op O) → Option (Store O)
  | [] => some s
  | op :: ops => (step vc s op).bind fun s' => run s' ops

/-- the calls that hand out or use a reference to the representation -/
def Op.writes : Op O → Bool
  | .resize .. | .setAt .. | .setDeg .. => true
  | _ => false

/-- the cached degree is right -/
def DegOK (o : Obj O) : Prop := o.deg = (o.data.map Prod.snd).sum

theorem sum_den (d : List (Var × Int)) : (d.map Prod.snd).sum = den (fun _ : Var => AddMonoidHom.id ℤ) d := by
  induction d with
  | nil => rfl
  | cons a d ih => rw [List.map_cons, List.sum_cons, ih]; simp [den]

theorem sum_pvAdd (f : Var → Var → Bool) (a b : List (Var × Int)) : ((pvAdd f a b).map Prod.snd).sum = (a.map Prod.snd).sum + (b.map Prod.snd).sum := by
  rw [sum_den, den_pvAdd, ← sum_den, ← sum_den]

theorem sum_pvSub (f : Var → Var → Bool) (a b : List (Var × Int)) : ((pvSub f a b).map Prod.snd).sum = (a.map Prod.snd).sum - (b.map Prod.snd).sum := by
  rw [sum_den, den_pvSub, ← sum_den, ← sum_den]

theorem update_all {α : Type*} {P : α → Prop} {s : ℕ → α} {i : ℕ} {o : α} (h : ∀ a, P (s a)) (ho : P o) : ∀ a, P (Function.update s i o a) := by
  intro a
  by_cases e : a = i
  · subst e; rw [Function.update_self]; exact ho
  · rw [Function.update_of_ne e]; exact h a

theorem sum_last {d : List (Var × Int)} {x : Var × Int} (h : d.getLast? = some x) : (d.map Prod.snd).sum = (d.dropLast.map Prod.snd).sum + x.2 := by
  obtain ⟨l, rfl⟩ := List.getLast?_eq_some_iff.1 h
  simp

theorem step_deg {s s' : Store O} {op : Op O} (hw : op.writes = false) (h : ∀ a, DegOK (s a)) (e : step vc s op = some s') : ∀ a, DegOK (s' a) := by
  cases op <;> simp only [step, Op.writes, Bool.true_eq_false] at e hw
  case new i c => obtain rfl := Option.some.inj e; exact update_all h rfl
  case newVar i v c => obtain rfl := Option.some.inj e; exact update_all h rfl
  case setVar i v => obtain rfl := Option.some.inj e; exact update_all h rfl
  case copy i j => obtain rfl := Option.some.inj e; exact update_all h (h j)
  case move i j =>
    obtain rfl := Option.some.inj e
    split
    · exact h
    · exact update_all (update_all h (h j)) rfl
  case setData i d => obtain rfl := Option.some.inj e; exact update_all h rfl
  case pushBack i x =>
    obtain rfl := Option.some.inj e
    refine update_all h ?_
    have := h i
    simp only [DegOK] at this ⊢
    rw [this]; simp
  case popBack i =>
    split at e
    · simp at e
    · rename_i x hx
      obtain rfl := Option.some.inj e
      refine update_all h ?_
      have := h i
      simp only [DegOK] at this ⊢
      rw [this, sum_last hx]; ring
  case clear i => obtain rfl := Option.some.inj e; exact update_all h rfl
  case swap i j => obtain rfl := Option.some.inj e; exact update_all (update_all h (h j)) (h i)
  case normalization i => obtain rfl := Option.some.inj e; exact update_all h rfl
  case reDeg i => obtain rfl := Option.some.inj e; exact update_all h rfl
  case setComp i c => obtain rfl := Option.some.inj e; exact update_all h (h i)
  case mul k i j =>
    split at e
    · obtain rfl := Option.some.inj e
      refine update_all h ?_
      have hi := h i
      have hj := h j
      simp only [DegOK] at hi hj ⊢
      rw [sum_pvAdd, hi, hj]
    · simp at e
  case div k i j =>
    split at e
    · obtain rfl := Option.some.inj e
      refine update_all h ?_
      have hi := h i
      have hj := h j
      simp only [DegOK] at hi hj ⊢
      rw [sum_pvSub, hi, hj]
    · simp at e

theorem run_deg (ops : List (Op O)) : ∀ {s s' : Store O}, (∀ op ∈ ops, op.writes = false) → (∀ a, DegOK (s a)) → run vc s ops = some s' → ∀ a, DegOK (s' a) := by
  induction ops with
  | nil => intro s s' _ h e; obtain rfl := Option.some.inj e; exact h
  | cons op ops ih =>
    intro s s' hw h e
    obtain ⟨s1, e1, e2⟩ := Option.bind_eq_some_iff.1 e
    exact ih (fun o ho => hw o (List.mem_cons_of_mem _ ho)) (step_deg vc (hw op (by simp)) h e1) e2

/-- strictly ordered, no exponent zero -/
def NormalForm (vc : O → Var → Var → Bool) (o : Obj O) : Prop := o.data.Pairwise (fun a b => vc o.ord a.1 b.1 = true) ∧ ∀ x ∈ o.data, x.2 ≠ 0

/-- the calls that keep normal forms: a pair that is pushed comes after the others and has an exponent, a new order puts the variables in the same order, data that is normalised has no pair of
exponents that cancel (exponents `≥ 0`) -/
def Careful (vc : O → Var → Var → Bool) (s : Store O) : Op O → Prop
  | .pushBack i x => x.2 ≠ 0 ∧ ∀ y ∈ (s i).data, vc (s i).ord y.1 x.1 = true
  | .setComp i c => (s i).data.Pairwise fun a b => vc c a.1 b.1 = true
  | .setData _ d => ∀ x ∈ d, 0 ≤ x.2
  | .resize i n => n ≤ (s i).data.length
  | .setAt .. => False
  | _ => True

/-- careful all along a history -/
def CarefulRun (vc : O → Var → Var → Bool) : Store O → List (Op O) → Prop
  | _, [] => True
  | s, op :: ops => Careful vc s op ∧ ∀ s', step vc s op = some s' → CarefulRun vc s' ops

theorem canon_of {o : Obj O} (h : NormalForm vc o) : Canon (vc o.ord) o.data := ⟨h.1, h.2⟩

theorem normalized_normal (hv : ∀ c, VarOrd (vc c)) {o : Obj O} (h : NormalForm vc o) : NormalForm vc (normalized vc o) := by
  have hs := normalize_sorted (hv o.ord) o.data
  refine ⟨hs, fun x hx hz => ?_⟩
  -- the exponent of a variable does not change
  have e1 := E_mem (hv o.ord) hs hx
  rw [E_normalize] at e1
  have hx' : ∃ y ∈ o.data, y.1 = x.1 := by
    have h1 := pvMerge_keys (vecSort (fun a b => !vc o.ord b.1 a.1) o.data) x hx
    obtain ⟨y, hy, e⟩ := h1
    exact ⟨y, (vecSort_perm _).mem_iff.1 hy, e⟩
  obtain ⟨y, hy, e⟩ := hx'
  rw [← e, E_mem (hv o.ord) h.1 hy] at e1
  exact h.2 y hy (e1.trans hz)

theorem step_normal (hv : ∀ c, VarOrd (vc c)) {s s' : Store O} {op : Op O} (hc : Careful vc s op) (h : ∀ a, NormalForm vc (s a)) (e : step vc s op = some s') : ∀ a, NormalForm vc (s' a) := by
  cases op <;> simp only [step] at e
  case new i c => obtain rfl := Option.some.inj e; exact update_all h ⟨List.Pairwise.nil, by simp⟩
  case newVar i v c => obtain rfl := Option.some.inj e; exact update_all h ⟨List.pairwise_singleton _ _, by simp⟩
  case setVar i v => obtain rfl := Option.some.inj e; exact update_all h ⟨List.pairwise_singleton _ _, by simp⟩
  case copy i j => obtain rfl := Option.some.inj e; exact update_all h (h j)
  case move i j =>
    obtain rfl := Option.some.inj e
    split
    · exact h
    · exact update_all (update_all h (h j)) ⟨List.Pairwise.nil, by simp⟩
  case setData i d =>
    obtain rfl := Option.some.inj e
    have hval := normalize_valid (hv (s i).ord) d hc
    exact update_all h ⟨hval.sorted, fun x hx => (hval.pos x hx).ne'⟩
  case pushBack i x =>
    obtain rfl := Option.some.inj e
    refine update_all h ⟨?_, fun y hy => ?_⟩
    · refine List.pairwise_append.2 ⟨(h i).1, List.pairwise_singleton _ _, fun a ha b hb => ?_⟩
      rw [List.mem_singleton] at hb
      rw [hb]; exact hc.2 a ha
    · rcases List.mem_append.1 hy with hy | hy
      · exact (h i).2 y hy
      · rw [List.mem_singleton] at hy; rw [hy]; exact hc.1
  case popBack i =>
    split at e
    · simp at e
    · obtain rfl := Option.some.inj e
      exact update_all h ⟨(h i).1.sublist (List.dropLast_sublist _), fun y hy => (h i).2 y (List.dropLast_subset _ hy)⟩
  case clear i => obtain rfl := Option.some.inj e; exact update_all h ⟨List.Pairwise.nil, by simp⟩
  case swap i j => obtain rfl := Option.some.inj e; exact update_all (update_all h (h j)) (h i)
  case normalization i => obtain rfl := Option.some.inj e; exact update_all h (normalized_normal vc hv (h i))
  case reDeg i => obtain rfl := Option.some.inj e; exact update_all h (h i)
  case setComp i c => obtain rfl := Option.some.inj e; exact update_all h ⟨hc, (h i).2⟩
  case mul k i j =>
    split at e
    · rename_i ho
      obtain rfl := Option.some.inj e
      have hj := canon_of vc (h j)
      rw [← ho] at hj
      have := pvAdd_canon (hv (s i).ord) (fun _ _ => trivial) (fun _ _ => trivial) (canon_of vc (h i)) hj
      exact update_all h ⟨this.1, this.2⟩
    · simp at e
  case div k i j =>
    split at e
    · rename_i ho
      obtain rfl := Option.some.inj e
      have hj := canon_of vc (h j)
      rw [← ho] at hj
      have := pvSub_canon (hv (s i).ord) (fun _ _ => trivial) (fun _ _ => trivial) (canon_of vc (h i)) hj
      exact update_all h ⟨this.1, this.2⟩
    · simp at e
  case resize i n =>
    obtain rfl := Option.some.inj e
    have hn : n - (s i).data.length = 0 := Nat.sub_eq_zero_of_le hc
    refine update_all h ?_
    rw [hn, List.replicate_zero, List.append_nil]
    exact ⟨(h i).1.sublist (List.take_sublist _ _), fun y hy => (h i).2 y (List.take_subset _ _ hy)⟩
  case setAt i k x => exact absurd hc id
  case setDeg i d => obtain rfl := Option.some.inj e; exact update_all h (h i)

theorem run_normal (hv : ∀ c, VarOrd (vc c)) (ops : List (Op O)) : ∀ {s s' : Store O}, CarefulRun vc s ops → (∀ a, NormalForm vc (s a)) → run vc s ops = some s' → ∀ a, NormalForm vc (s' a) := by
  induction ops with
  | nil => intro s s' _ h e; obtain rfl := Option.some.inj e; exact h
  | cons op ops ih =>
    intro s s' hc h e
    obtain ⟨s1, e1, e2⟩ := Option.bind_eq_some_iff.1 e
    exact ih (hc.2 s1 e1) (step_normal vc hv hc.1 h e1) e2

end MonoObj
end CLPoly
