import Verif.Num.Memory

/-!
# Property C114: the memory of integers

`ZZMem.run st ops` is the memory after the calls `ops`; `none` if one of them has undefined behaviour: a GMP number that is freed twice or used after it is freed, an object that is not alive, the negation of `INT64_MIN`.
`ZZMem.look st i` is the integer the object `i` stands for, `ZZMem.specRun` says what the calls mean for integers, without memory.
-/

namespace CLPoly
open ZZMem

/-- a correct program (objects are constructed before they are used and not after they are destroyed) never frees a number twice, never uses a dangling pointer, and every object has the value that the assignments over integers give it -/
theorem C114_history {ops : List Op} (ha : AllowedRun (fun _ => none) ops) : ∃ s, run start ops = some s ∧ ∀ i, look s i = specRun (fun _ => none) ops i := by
  obtain ⟨s, h1, -, h3⟩ := run_spec ops start_inv ha
  exact ⟨s, h1, fun i => by rw [h3]; rfl⟩

/-- the same from the middle of a program: a history can be cut anywhere -/
theorem C114_every_moment {ops ops' : List Op} (ha : AllowedRun (fun _ => none) (ops ++ ops')) :
    ∃ s t, run start ops = some s ∧ run s ops' = some t ∧ (∀ i, look s i = specRun (fun _ => none) ops i) ∧ ∀ i, look t i = specRun (fun _ => none) (ops ++ ops') i := by
  have split : ∀ (ops : List Op) (m : ℕ → Option ℤ), AllowedRun m (ops ++ ops') → AllowedRun m ops ∧ AllowedRun (specRun m ops) ops' ∧ specRun m (ops ++ ops') = specRun (specRun m ops) ops' := by
    intro ops
    induction ops with
    | nil => intro m h; exact ⟨trivial, h, rfl⟩
    | cons op ops ih =>
      intro m h
      obtain ⟨h1, h2⟩ := h
      obtain ⟨k1, k2, k3⟩ := ih _ h2
      exact ⟨⟨h1, k1⟩, k2, k3⟩
  obtain ⟨h1, h2, h3⟩ := split ops _ ha
  obtain ⟨s, k1, k2, k3⟩ := run_spec ops start_inv h1
  have e : look start = fun _ => none := rfl
  rw [e] at k3
  obtain ⟨t, l1, -, l3⟩ := run_spec ops' k2 (by rw [k3]; exact h2)
  exact ⟨s, t, k1, l1, fun i => by rw [k3], fun i => by rw [l3, k3, h3]⟩

/-- at every moment each allocated number belongs to exactly one living object, and each pointer that is not null points to an allocated number -/
theorem C114_ownership {ops : List Op} (ha : AllowedRun (fun _ => none) ops) {s : St} (e : run start ops = some s) :
    (∀ p, (∃ z, s.heap p = some z) ↔ ∃ i o, s.obj i = some o ∧ o.ptr = some p) ∧
      ∀ i j oi oj p, s.obj i = some oi → s.obj j = some oj → oi.ptr = some p → oj.ptr = some p → i = j := by
  obtain ⟨t, h1, h2, -⟩ := run_spec ops start_inv ha
  obtain rfl := Option.some.inj (e.symm.trans h1)
  exact ⟨fun p => ⟨fun ⟨z, hz⟩ => h2.owned p z hz, fun ⟨i, o, e1, e2⟩ => (h2.live i o p e1 e2).imp fun _ h => h.1⟩, h2.inj⟩

/-- an integer is inline exactly when it fits into 64 bits: numbers that fit never occupy the heap -/
theorem C114_inline {ops : List Op} (ha : AllowedRun (fun _ => none) ops) {s : St} (e : run start ops = some s) {i : ℕ} {o : Obj} {z : ℤ} (eo : s.obj i = some o) (ez : look s i = some z) :
    o.ptr = none ↔ -2 ^ 63 ≤ z ∧ z < 2 ^ 63 := by
  obtain ⟨t, h1, h2, -⟩ := run_spec ops start_inv ha
  obtain rfl := Option.some.inj (e.symm.trans h1)
  have := small_iff h2 ez
  simp only [isSmall, eo, Option.isNone_iff_eq_none, InI64, i64min, i64max] at this
  rw [this]
  constructor <;> rintro ⟨a, b⟩ <;> constructor <;> omega

/-- no leak: when no object is alive any more nothing is allocated -/
theorem C114_no_leak {ops : List Op} (ha : AllowedRun (fun _ => none) ops) (hd : ∀ i, specRun (fun _ => none) ops i = none) {s : St} (e : run start ops = some s) (p : ℕ) : s.heap p = none := by
  obtain ⟨t, h1, h2, h3⟩ := run_spec ops start_inv ha
  obtain rfl := Option.some.inj (e.symm.trans h1)
  cases hp : s.heap p with
  | none => rfl
  | some z =>
    obtain ⟨i, o, e1, e2⟩ := h2.owned p z hp
    obtain ⟨v, hv, -⟩ := h2.live i o p e1 e2
    have : look s i = some v := by simp only [look, e1, e2, hv]
    rw [h3, show look start = fun _ => none from rfl, hd i] at this
    simp at this

/-- the number of allocated numbers is the number of objects whose value does not fit into 64 bits -/
theorem C114_count {ops : List Op} (ha : AllowedRun (fun _ => none) ops) {s : St} (e : run start ops = some s) :
    ∃ f : {i // ∃ z, specRun (fun _ => none) ops i = some z ∧ ¬ (-2 ^ 63 ≤ z ∧ z < 2 ^ 63)} → {p // s.heap p ≠ none}, (∀ a b, f a = f b → a = b) ∧ ∀ p, ∃ a, f a = p := by
  obtain ⟨t, h1, h2, h3⟩ := run_spec ops start_inv ha
  obtain rfl := Option.some.inj (e.symm.trans h1)
  have hl : ∀ i, look s i = specRun (fun _ => none) ops i := fun i => by rw [h3]; rfl
  have big : ∀ i z, look s i = some z → ¬ (-2 ^ 63 ≤ z ∧ z < 2 ^ 63) → ∃ o p, s.obj i = some o ∧ o.ptr = some p := by
    intro i z hz hn
    obtain ⟨o, eo⟩ := obj_of_look hz
    cases ep : o.ptr with
    | none => exact absurd ((C114_inline ha e eo hz).1 ep) hn
    | some p => exact ⟨o, p, eo, ep⟩
  have pick : ∀ a : {i // ∃ z, specRun (fun _ => none) ops i = some z ∧ ¬ (-2 ^ 63 ≤ z ∧ z < 2 ^ 63)}, ∃ p o, s.obj a.1 = some o ∧ o.ptr = some p := by
    rintro ⟨i, z, hz, hn⟩
    obtain ⟨o, p, k1, k2⟩ := big i z (by rw [hl, hz]) hn
    exact ⟨p, o, k1, k2⟩
  choose g hg using pick
  refine ⟨fun a => ⟨g a, ?_⟩, ?_, ?_⟩
  · obtain ⟨o, k1, k2⟩ := hg a
    obtain ⟨v, hv, -⟩ := h2.live _ o _ k1 k2
    rw [hv]; simp
  · intro a b hab
    obtain ⟨o, k1, k2⟩ := hg a
    obtain ⟨o', l1, l2⟩ := hg b
    have : g a = g b := congrArg Subtype.val hab
    rw [← this] at l2
    exact Subtype.ext (h2.inj _ _ _ _ _ k1 l1 k2 l2)
  · rintro ⟨p, hp⟩
    obtain ⟨z, hz⟩ := Option.ne_none_iff_exists'.1 hp
    obtain ⟨i, o, e1, e2⟩ := h2.owned p z hz
    obtain ⟨v, hv, -⟩ := h2.live i o p e1 e2
    have hlv : look s i = some v := by simp only [look, e1, e2, hv]
    have hn : ¬ (-2 ^ 63 ≤ v ∧ v < 2 ^ 63) := fun h => by
      have := (C114_inline ha e e1 hlv).2 h
      rw [e2] at this; simp at this
    refine ⟨⟨i, v, by rw [← hl, hlv], hn⟩, Subtype.ext ?_⟩
    obtain ⟨o', k1, k2⟩ := hg ⟨i, v, by rw [← hl, hlv], hn⟩
    simp only at k1
    rw [e1] at k1
    obtain rfl := Option.some.inj k1
    rw [e2] at k2
    exact (Option.some.inj k2).symm

/-- a call changes only the objects it names -/
theorem C114_frame {m : ℕ → Option ℤ} {op : Op} {a : ℕ}
    (h : match op with
      | .ctor i _ | .ctorU i _ | .ctorStr i _ | .ctorMpz i _ | .copyCtor i _ | .dtor i | .copyAssign i _ | .assign i _ | .assignU i _ | .arith _ i _ | .result _ i _ _ | .shr i _ | .shl i _ | .addmul _ i _ _ | .quot i _ _ | .rem i _ _ | .fdivQ i _ _ | .fdivR i _ _ => a ≠ i
      | .moveCtor i j | .moveAssign i j | .swap i j => a ≠ i ∧ a ≠ j) : spec m op a = m a := by
  cases op <;> simp only [spec] at * <;> (try split) <;> simp_all [upd]

/-- example: a history with a promotion, copies, self-assignment, a move, a swap, `x += x`, a string that is refused and the destructors -/
def memOps : List Op :=
  [.ctor 0 3, .shl 0 100, .copyCtor 1 0, .arith .add 0 0, .copyAssign 0 0, .moveAssign 1 1, .ctorStr 2 none, .ctorStr 2 (some (-7)), .swap 0 2, .moveCtor 3 1, .result .sub 4 3 2, .addmul true 4 0 3,
   .moveAssign 4 3, .shr 2 99, .assignU 4 (2 ^ 63), .copyAssign 4 0, .arith .mul 2 2, .quot 5 0 2, .rem 6 0 2, .fdivQ 2 2 0, .fdivR 0 0 3, .fdivQ 5 5 6, .dtor 5, .dtor 6, .dtor 0, .dtor 1, .dtor 2, .dtor 3, .dtor 4]

example : AllowedRun (fun _ => none) memOps := by decide +kernel

example : ∀ i, specRun (fun _ => none) memOps i = none := by
  intro i
  match i with
  | 0 | 1 | 2 | 3 | 4 | 5 | 6 => decide +kernel
  | n + 7 => rfl

example : ((run start (memOps.take 11)).map fun s => (look s 0, look s 1, look s 2, look s 3, look s 4)) = some (some (-7), some 0, some (6 * 2 ^ 100), some (3 * 2 ^ 100), some (-3 * 2 ^ 100)) := by decide +kernel

/-- what `AllowedRun` excludes is undefined in the code: `x += y` where the sum overflows and `y` is `INT64_MIN` negates `INT64_MIN` -/
theorem C114_refuted_min : run start [.ctor 0 (-1), .ctor 1 (-2 ^ 63), .arith .add 0 1] = none := by decide +kernel

/-- `fdiv_r` of `INT64_MIN` and `-1` computes `INT64_MIN % -1`, which is undefined; `%` and `fdiv_q` treat the case -/
theorem C114_refuted_fdivR : run start [.ctor 0 (-2 ^ 63), .ctor 1 (-1), .rem 2 0 1, .fdivQ 2 0 1, .fdivR 2 0 1] = none ∧
    ((run start [.ctor 0 (-2 ^ 63), .ctor 1 (-1), .rem 2 0 1, .fdivQ 2 0 1]).bind fun s => look s 2) = some (2 ^ 63) := by decide +kernel

/-- an object that is used after its destructor, or destroyed twice -/
theorem C114_refuted_dead (x : ℕ) (z : ℤ) : run start [.ctorMpz x z, .dtor x, .dtor x] = none := by
  by_cases h : InI64 z <;> simp [run, step, h, create, alloc, destroy, del, start, upd]

end CLPoly
