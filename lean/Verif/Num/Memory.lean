import Verif.Num.ZZLemmas
import Mathlib.Tactic.Linarith
import Mathlib.Tactic.Positivity

/-! # The memory of `ZZ` objects (/repo/clpoly/number/ZZ.hh)

`ZZ.lean` models the values; here are the objects: `_val`, the pointer `_mpz`, the GMP numbers on the heap, who owns them, and when they are freed. -/

namespace CLPoly
namespace ZZMem

/-- ZZ.hh 77–78: an object; `ptr = none` is the null pointer -/
structure Obj where
  val : ℤ
  ptr : Option ℕ
deriving DecidableEq

/-- the memory: the GMP numbers that are allocated (`new __mpz_struct` and `mpz_init`), the next free address of the allocator, and the objects that are alive, by address -/
structure St where
  heap : ℕ → Option ℤ
  next : ℕ
  obj : ℕ → Option Obj

/-- change of a function at one point -/
def upd {α : Type} (f : ℕ → α) (i : ℕ) (v : α) : ℕ → α := fun a => if a = i then v else f a

/-- the integer that an object that is alive stands for (ZZ.hh 81: `_val` or the GMP number); `none` also for a dangling pointer -/
def look (st : St) (i : ℕ) : Option ℤ :=
  match st.obj i with
  | none => none
  | some o => match o.ptr with
    | none => some o.val
    | some p => st.heap p

/-! ## the steps the member functions are made of -/

/-- ZZ.hh 83–87 `_mpz_new` for an object whose pointer is null, with `mpz_set` to `z` (93–96 `_promote`: `z` is `_val`) -/
def alloc (i : ℕ) (z : ℤ) (st : St) : Option St :=
  match st.obj i with
  | none => none
  | some o => some ⟨upd st.heap st.next (some z), st.next + 1, upd st.obj i (some ⟨o.val, some st.next⟩)⟩

/-- a GMP function writes `z` to the number of the object; `none`: null or dangling pointer -/
def write (i : ℕ) (z : ℤ) (st : St) : Option St :=
  match st.obj i with
  | none => none
  | some o => match o.ptr with
    | none => none
    | some p => match st.heap p with
      | none => none
      | some _ => some ⟨upd st.heap p (some z), st.next, st.obj⟩

/-- ZZ.hh 88–91 `_mpz_del`: `none`: the number is not allocated (freed twice) -/
def del (p : ℕ) (st : St) : Option St :=
  match st.heap p with
  | none => none
  | some _ => some ⟨upd st.heap p none, st.next, st.obj⟩

/-- `if (_mpz) { _mpz_del(_mpz); _mpz = nullptr; } _val = v;` (ZZ.hh 228–229, 252–253, …) -/
def free (i : ℕ) (v : ℤ) (st : St) : Option St :=
  match st.obj i with
  | none => none
  | some o => match o.ptr with
    | none => some ⟨st.heap, st.next, upd st.obj i (some ⟨v, none⟩)⟩
    | some p => (del p st).map fun s => ⟨s.heap, s.next, upd s.obj i (some ⟨v, none⟩)⟩

/-- ZZ.hh 133–139 `_demote_if_small` -/
def demote (i : ℕ) (st : St) : Option St :=
  match st.obj i with
  | none => none
  | some o => match o.ptr with
    | none => some st
    | some p => match st.heap p with
      | none => none
      | some v => if InI64 v then free i v st else some st

/-- ZZ.hh 141–144 `_ensure_mpz` -/
def ensure (i : ℕ) (st : St) : Option St :=
  match st.obj i with
  | none => none
  | some o => match o.ptr with
    | none => alloc i o.val st
    | some _ => some st

/-- an object comes to life with `_val = v` and the null pointer (ZZ.hh 148–152); `none`: there is one at this address -/
def create (i : ℕ) (v : ℤ) (st : St) : Option St :=
  match st.obj i with
  | none => some ⟨st.heap, st.next, upd st.obj i (some ⟨v, none⟩)⟩
  | some _ => none

/-- ZZ.hh 220–222 the destructor -/
def destroy (i : ℕ) (st : St) : Option St :=
  match st.obj i with
  | none => none
  | some o => match o.ptr with
    | none => some ⟨st.heap, st.next, upd st.obj i none⟩
    | some p => (del p st).map fun s => ⟨s.heap, s.next, upd s.obj i none⟩

/-- `_val = o._val; _mpz = o._mpz; o._val = 0; o._mpz = nullptr` (ZZ.hh 215–218, 244–247) -/
def steal (i j : ℕ) (st : St) : Option St :=
  match st.obj j with
  | none => none
  | some o => some ⟨st.heap, st.next, upd (upd st.obj i (some o)) j (some ⟨0, none⟩)⟩

/-! ## the member functions -/

/-- the operations in place -/
inductive Arith where
  | add | sub | mul
deriving DecidableEq

/-- what they compute -/
def Arith.fn : Arith → ℤ → ℤ → ℤ
  | .add => (· + ·)
  | .sub => (· - ·)
  | .mul => (· * ·)

/-- the small value that is passed to `mpz_add_ui`, `mpz_sub_ui` is negated if negative: undefined for `INT64_MIN`; `mpz_mul_si` takes it as it is -/
def Arith.bad : Arith → ℤ → Prop
  | .mul, _ => False
  | _, b => b = i64min

instance (f : Arith) (b : ℤ) : Decidable (f.bad b) := by cases f <;> unfold Arith.bad <;> infer_instance

/-- the calls -/
inductive Op where
  /-- ZZ.hh 148–152 -/
  | ctor (i : ℕ) (v : ℤ)
  /-- ZZ.hh 154–179 -/
  | ctorU (i : ℕ) (v : ℕ)
  /-- ZZ.hh 181–195: `r` is what `mpz_set_str` makes of the string, `none`: it is refused and the constructor throws -/
  | ctorStr (i : ℕ) (r : Option ℤ)
  /-- ZZ.hh 197–204 -/
  | ctorMpz (i : ℕ) (z : ℤ)
  /-- ZZ.hh 207–212 -/
  | copyCtor (i j : ℕ)
  /-- ZZ.hh 215–218 -/
  | moveCtor (i j : ℕ)
  /-- ZZ.hh 220–222 -/
  | dtor (i : ℕ)
  /-- ZZ.hh 225–239 -/
  | copyAssign (i j : ℕ)
  /-- ZZ.hh 241–249 -/
  | moveAssign (i j : ℕ)
  /-- ZZ.hh 251–270 -/
  | assign (i : ℕ) (v : ℤ)
  /-- ZZ.hh 271–290 -/
  | assignU (i : ℕ) (v : ℕ)
  /-- ZZ.hh 293–296 -/
  | swap (i j : ℕ)
  /-- ZZ.hh 529–594: `x_i += x_j`, `-=`, `*=` -/
  | arith (f : Arith) (i j : ℕ)
  /-- ZZ.hh 377–468: `ZZ x_k = x_i + x_j`, `-`, `*` -/
  | result (f : Arith) (k i j : ℕ)
  /-- ZZ.hh 598–608 -/
  | shr (i n : ℕ)
  /-- ZZ.hh 609–614 -/
  | shl (i n : ℕ)
  /-- ZZ.hh 621–655 `x_i.addmul(x_j, x_k)` (`neg`: 657–690 `submul`) -/
  | addmul (neg : Bool) (i j k : ℕ)
  /-- ZZ.hh 470–500: `ZZ x_k = x_i / x_j` (`x_i /= x_j`, 597, is this with a temporary, a move assignment and the destructor) -/
  | quot (k i j : ℕ)
  /-- ZZ.hh 503–526: `ZZ x_k = x_i % x_j` -/
  | rem (k i j : ℕ)
  /-- ZZ.hh 735–765 `fdiv_q(x_i, x_j, x_k)` -/
  | fdivQ (i j k : ℕ)
  /-- ZZ.hh 810–835 `fdiv_r(x_i, x_j, x_k)` -/
  | fdivR (i j k : ℕ)

/-- the object's pointer is null -/
def isSmall (st : St) (i : ℕ) : Bool := match st.obj i with | some o => o.ptr.isNone | none => true

/-- ZZ.hh 529–594: the operand `x_j` is read again after `_ensure_mpz` (it may be the object itself) -/
def arithStep (f : Arith) (i j : ℕ) (st : St) : Option St :=
  (look st i).bind fun a => (look st j).bind fun b =>
    if isSmall st i ∧ isSmall st j ∧ InI64 (f.fn a b) then free i (f.fn a b) st
    else (ensure i st).bind fun s => (look s i).bind fun a => (look s j).bind fun b =>
      if isSmall s j ∧ f.bad b then none else (write i (f.fn a b) s).bind (demote i)

/-- ZZ.hh 377–468: the result is a new object -/
def resultStep (f : Arith) (k i j : ℕ) (st : St) : Option St :=
  (look st i).bind fun a => (look st j).bind fun b =>
    if isSmall st i ∧ isSmall st j ∧ InI64 (f.fn a b) then create k (f.fn a b) st
    else if (isSmall st j ∧ f.bad b) ∨ (f = .add ∧ isSmall st i ∧ ¬ isSmall st j ∧ f.bad a) then none
    else (create k 0 st).bind fun s => (alloc k 0 s).bind fun s => (write k (f.fn a b) s).bind (demote k)

/-- ZZ.hh 470–526: `spc` is the result for `INT64_MIN` and `-1`; a throw (small operands, zero) changes nothing, GMP traps at zero -/
def divStep (f : ℤ → ℤ → ℤ) (spc : ℕ → St → Option St) (k i j : ℕ) (st : St) : Option St :=
  (look st i).bind fun a => (look st j).bind fun b =>
    if isSmall st i ∧ isSmall st j then
      if b = 0 then some st else if a = i64min ∧ b = -1 then spc k st else create k (f a b) st
    else if b = 0 then none
    else (create k 0 st).bind fun s => (alloc k 0 s).bind fun s => (write k (f a b) s).bind (demote k)

/-- ZZ.hh 743–745, 788–790: the correction of the truncating division -/
def floorAdj (a b : ℤ) : Prop := a.tmod b ≠ 0 ∧ ((a.tmod b < 0 ∧ 0 ≤ b) ∨ (0 ≤ a.tmod b ∧ b < 0))

instance (a b : ℤ) : Decidable (floorAdj a b) := by unfold floorAdj; infer_instance

/-- ZZ.hh 735–765, 810–835: `q` is the result for small operands, `g` that of GMP, `spc` for `INT64_MIN` and `-1`; the operands are read again after `_ensure_mpz` of the target (it may be an operand) -/
def floorStep (q g : ℤ → ℤ → ℤ) (spc : ℕ → St → Option St) (i j k : ℕ) (st : St) : Option St :=
  (look st j).bind fun a => (look st k).bind fun b =>
    if isSmall st j ∧ isSmall st k then
      if b = 0 then some st else if a = i64min ∧ b = -1 then spc i st else free i (q a b) st
    else (ensure i st).bind fun s => (look s j).bind fun a => (look s k).bind fun b =>
      if b = 0 then none else (write i (g a b) s).bind (demote i)

/-- the effect of a call (lines at the constructors of `Op`).  `none`: undefined behaviour (a pointer that dangles, a number freed twice, an object used that is not alive, the negation of `INT64_MIN`). -/
def step (st : St) : Op → Option St
  | .ctor i v => create i v st
  | .ctorU i v => if (v : ℤ) ≤ i64max then create i v st else (create i 0 st).bind (alloc i v)
  | .ctorStr i r =>
    match r with
    | none => some ⟨upd (upd st.heap st.next (some 0)) st.next none, st.next + 1, st.obj⟩
    | some z => if InI64 z then (create i z st).map fun s => ⟨upd (upd s.heap s.next (some z)) s.next none, s.next + 1, s.obj⟩ else (create i 0 st).bind (alloc i z)
  | .ctorMpz i z => if InI64 z then create i z st else (create i 0 st).bind (alloc i z)
  | .copyCtor i j =>
    (look st j).bind fun z => if isSmall st j then create i z st else (create i 0 st).bind (alloc i z)
  | .moveCtor i j => if i = j then none else (create i 0 st).bind (steal i j)
  | .dtor i => destroy i st
  | .copyAssign i j =>
    if i = j then some st else (look st j).bind fun z =>
      if isSmall st j then free i z st else if isSmall st i then alloc i z st else write i z st
  | .moveAssign i j => if i = j then some st else (free i 0 st).bind (steal i j)
  | .assign i v => free i v st
  | .assignU i v => if (v : ℤ) ≤ i64max then free i v st else if isSmall st i then (free i 0 st).bind (alloc i v) else write i v st
  | .swap i j =>
    match st.obj i, st.obj j with
    | some a, some b => some ⟨st.heap, st.next, upd (upd st.obj i (some b)) j (some a)⟩
    | _, _ => none
  | .arith f i j => arithStep f i j st
  | .result f k i j => resultStep f k i j st
  | .shr i n => (look st i).bind fun a => if isSmall st i then free i (a / 2 ^ n) st else (write i (a / 2 ^ n) st).bind (demote i)
  | .shl i n => (ensure i st).bind fun s => (look s i).bind fun a => (write i (a * 2 ^ n) s).bind (demote i)
  | .addmul neg i j k =>
    (look st i).bind fun a => (look st j).bind fun b => (look st k).bind fun c =>
      if isSmall st i ∧ isSmall st j ∧ isSmall st k ∧ InI64 (if neg then a - b * c else a + b * c) then free i (if neg then a - b * c else a + b * c) st
      else (ensure i st).bind fun s => (look s i).bind fun a => (look s j).bind fun b => (look s k).bind fun c =>
        (write i (if neg then a - b * c else a + b * c) s).bind (demote i)
  | .quot k i j => divStep Int.tdiv (fun k st => (create k 0 st).bind (alloc k (-i64min))) k i j st
  | .rem k i j => divStep Int.tmod (fun k st => create k 0 st) k i j st
  | .fdivQ i j k => floorStep (fun a b => if floorAdj a b then a.tdiv b - 1 else a.tdiv b) Int.fdiv (fun i st => (ensure i st).bind (write i (-i64min))) i j k st
  | .fdivR i j k => floorStep (fun a b => if floorAdj a b then a.tmod b + b else a.tmod b) Int.fmod (fun _ _ => none) i j k st

/-- a history -/
def run (st : St) : List Op → Option St
  | [] => some st
  | op :: ops => (step st op).bind fun s => run s ops

/-! ## ownership -/

/-- every pointer of a living object points to an allocated number that belongs to it alone, every allocated number belongs to a living object, small values are inline and only they (except for the object `x`,
which is being worked on) -/
structure Inv (st : St) (x : Option ℕ) : Prop where
  live : ∀ i o p, st.obj i = some o → o.ptr = some p → ∃ v, st.heap p = some v ∧ (x ≠ some i → ¬ InI64 v)
  small : ∀ i o, st.obj i = some o → o.ptr = none → InI64 o.val
  inj : ∀ i j oi oj p, st.obj i = some oi → st.obj j = some oj → oi.ptr = some p → oj.ptr = some p → i = j
  owned : ∀ p v, st.heap p = some v → ∃ i o, st.obj i = some o ∧ o.ptr = some p
  fresh : ∀ p, st.next ≤ p → st.heap p = none

theorem Inv.weaken {st : St} (h : Inv st none) (x : Option ℕ) : Inv st x :=
  ⟨fun i o p e1 e2 => (h.live i o p e1 e2).imp fun _ hv => ⟨hv.1, fun _ => hv.2 (by simp)⟩, h.small, h.inj, h.owned, h.fresh⟩

theorem alloc_spec {st : St} {x : Option ℕ} {i : ℕ} {o : Obj} (z : ℤ) (h : Inv st x) (hx : x = none ∨ x = some i) (e : st.obj i = some o) (ep : o.ptr = none) :
    ∃ s, alloc i z st = some s ∧ Inv s (if InI64 z then some i else x) ∧ look s = upd (look st) i (some z) ∧ s.obj = upd st.obj i (some ⟨o.val, some st.next⟩) := by
  refine ⟨⟨upd st.heap st.next (some z), st.next + 1, upd st.obj i (some ⟨o.val, some st.next⟩)⟩, by simp only [alloc, e], ⟨?_, ?_, ?_, ?_, ?_⟩, ?_, rfl⟩
  · intro a oa p e1 e2
    have h1 := h.live a
    have h2 := h.fresh st.next le_rfl
    simp only [upd] at e1 ⊢
    by_cases ha : a = i
    · subst ha
      rw [if_pos rfl] at e1
      obtain rfl := Option.some.inj e1
      obtain rfl := Option.some.inj e2
      refine ⟨z, if_pos rfl, fun h hz => ?_⟩
      rw [if_pos hz] at h; exact h rfl
    · rw [if_neg ha] at e1
      obtain ⟨v, hv, hc⟩ := h1 oa p e1 e2
      have hp : p ≠ st.next := by rintro rfl; rw [h2] at hv; simp at hv
      refine ⟨v, by rw [if_neg hp]; exact hv, fun _ => hc ?_⟩
      rcases hx with rfl | rfl
      · simp
      · simpa using fun h => ha h.symm
  · intro a oa e1 e2
    simp only [upd] at e1
    by_cases ha : a = i
    · rw [if_pos ha] at e1; obtain rfl := Option.some.inj e1; simp at e2
    · rw [if_neg ha] at e1; exact h.small a oa e1 e2
  · intro a b oa ob p e1 e2 e3 e4
    have h2 := h.fresh st.next le_rfl
    simp only [upd] at e1 e2
    by_cases ha : a = i <;> by_cases hb : b = i
    · rw [ha, hb]
    · rw [if_pos ha] at e1; rw [if_neg hb] at e2
      obtain rfl := Option.some.inj e1
      obtain rfl := Option.some.inj e3
      obtain ⟨v, hv, -⟩ := h.live b ob _ e2 e4
      rw [h2] at hv; simp at hv
    · rw [if_neg ha] at e1; rw [if_pos hb] at e2
      obtain rfl := Option.some.inj e2
      obtain rfl := Option.some.inj e4
      obtain ⟨v, hv, -⟩ := h.live a oa _ e1 e3
      rw [h2] at hv; simp at hv
    · rw [if_neg ha] at e1; rw [if_neg hb] at e2
      exact h.inj a b oa ob p e1 e2 e3 e4
  · intro p v hv
    simp only [upd] at hv ⊢
    by_cases hp : p = st.next
    · exact ⟨i, ⟨o.val, some st.next⟩, if_pos rfl, by rw [hp]⟩
    · rw [if_neg hp] at hv
      obtain ⟨a, oa, e1, e2⟩ := h.owned p v hv
      refine ⟨a, oa, ?_, e2⟩
      rw [if_neg, e1]
      rintro rfl
      rw [e] at e1; obtain rfl := Option.some.inj e1; rw [ep] at e2; simp at e2
  · intro p hp
    simp only [upd]
    rw [if_neg (by simp only at hp; omega)]
    exact h.fresh p (by simp only at hp; omega)
  · funext a
    simp only [look, upd]
    by_cases ha : a = i
    · simp [ha]
    · simp only [if_neg ha]
      cases e1 : st.obj a with
      | none => rfl
      | some oa =>
        cases e2 : oa.ptr with
        | none => simp [e2]
        | some p =>
          obtain ⟨v, hv, -⟩ := h.live a oa p e1 e2
          have hp : p ≠ st.next := by rintro rfl; rw [h.fresh st.next le_rfl] at hv; simp at hv
          simp [e2, hp]

theorem write_spec {st : St} {x : Option ℕ} {i p : ℕ} {o : Obj} (z : ℤ) (h : Inv st x) (hx : x = none ∨ x = some i) (e : st.obj i = some o) (ep : o.ptr = some p) :
    ∃ s, write i z st = some s ∧ Inv s (if InI64 z then some i else none) ∧ look s = upd (look st) i (some z) ∧ s.obj = st.obj := by
  obtain ⟨v0, hv0, -⟩ := h.live i o p e ep
  refine ⟨⟨upd st.heap p (some z), st.next, st.obj⟩, by simp only [write, e, ep, hv0], ⟨?_, h.small, h.inj, ?_, ?_⟩, ?_, rfl⟩
  · intro a oa q e1 e2
    obtain ⟨v, hv, hc⟩ := h.live a oa q e1 e2
    simp only [upd]
    by_cases hq : q = p
    · refine ⟨z, if_pos hq, fun h' hz => ?_⟩
      rw [if_pos hz] at h'
      exact h' (congrArg some (h.inj i a o oa q e e1 (by rw [ep, hq]) e2))
    · refine ⟨v, by rw [if_neg hq]; exact hv, fun _ => hc ?_⟩
      rcases hx with rfl | rfl
      · simp
      · intro h'
        obtain rfl := Option.some.inj h'
        rw [e] at e1; obtain rfl := Option.some.inj e1
        rw [ep] at e2; exact hq (Option.some.inj e2).symm
  · intro q v hv
    simp only [upd] at hv
    by_cases hq : q = p
    · exact ⟨i, o, e, by rw [ep, hq]⟩
    · rw [if_neg hq] at hv; exact h.owned q v hv
  · intro q hq
    simp only [upd]
    rw [if_neg]
    · exact h.fresh q hq
    · rintro rfl; rw [h.fresh _ hq] at hv0; simp at hv0
  · funext a
    simp only [look, upd]
    by_cases ha : a = i
    · subst ha; simp [e, ep]
    · simp only [if_neg ha]
      cases e1 : st.obj a with
      | none => rfl
      | some oa =>
        cases e2 : oa.ptr with
        | none => simp [e2]
        | some q =>
          have hq : q ≠ p := fun hq => ha (h.inj a i oa o p e1 e (by rw [e2, hq]) ep)
          simp [e2, hq]

/-- freeing the number of an object and putting something without a number in its place -/
theorem drop_spec {st : St} {x : Option ℕ} {i : ℕ} {o : Obj} (h : Inv st x) (hx : x = none ∨ x = some i) (e : st.obj i = some o) (r : Option Obj)
    (hr : ∀ o', r = some o' → o'.ptr = none ∧ InI64 o'.val) :
    ∃ hp : ℕ → Option ℤ, ((o.ptr = none ∧ hp = st.heap) ∨ ∃ p v, o.ptr = some p ∧ st.heap p = some v ∧ hp = upd st.heap p none) ∧
      Inv ⟨hp, st.next, upd st.obj i r⟩ none ∧ look ⟨hp, st.next, upd st.obj i r⟩ = upd (look st) i (r.map Obj.val) := by
  obtain ⟨hp, hh⟩ : ∃ hp : ℕ → Option ℤ, ((o.ptr = none ∧ hp = st.heap) ∨ ∃ p v, o.ptr = some p ∧ st.heap p = some v ∧ hp = upd st.heap p none) := by
    cases ep : o.ptr with
    | none => exact ⟨st.heap, .inl ⟨rfl, rfl⟩⟩
    | some p =>
      obtain ⟨v, hv, -⟩ := h.live i o p e ep
      exact ⟨upd st.heap p none, .inr ⟨p, v, rfl, hv, rfl⟩⟩
  -- the other numbers stay
  have hs : ∀ q, o.ptr ≠ some q → hp q = st.heap q := by
    intro q hq
    rcases hh with ⟨_, rfl⟩ | ⟨p, v, ep, _, rfl⟩
    · rfl
    · simp only [upd]; rw [if_neg]; rintro rfl; exact hq ep
  have hd : ∀ q, o.ptr = some q → hp q = none := by
    intro q hq
    rcases hh with ⟨ep, _⟩ | ⟨p, v, ep, _, rfl⟩
    · rw [ep] at hq; simp at hq
    · rw [ep] at hq; obtain rfl := Option.some.inj hq; simp [upd]
  have hne : ∀ a oa q, a ≠ i → st.obj a = some oa → oa.ptr = some q → o.ptr ≠ some q := fun a oa q ha e1 e2 e3 => ha (h.inj a i oa o q e1 e e2 e3)
  refine ⟨hp, hh, ⟨?_, ?_, ?_, ?_, ?_⟩, ?_⟩
  · intro a oa q e1 e2
    simp only [upd] at e1
    by_cases ha : a = i
    · rw [if_pos ha] at e1; rw [(hr oa e1).1] at e2; simp at e2
    · rw [if_neg ha] at e1
      obtain ⟨v, hv, hc⟩ := h.live a oa q e1 e2
      refine ⟨v, (hs q (hne a oa q ha e1 e2)).trans hv, fun _ => hc ?_⟩
      rcases hx with rfl | rfl
      · simp
      · simpa using fun h => ha h.symm
  · intro a oa e1 e2
    simp only [upd] at e1
    by_cases ha : a = i
    · rw [if_pos ha] at e1; exact (hr oa e1).2
    · rw [if_neg ha] at e1; exact h.small a oa e1 e2
  · intro a b oa ob q e1 e2 e3 e4
    simp only [upd] at e1 e2
    by_cases ha : a = i
    · rw [if_pos ha] at e1; rw [(hr oa e1).1] at e3; simp at e3
    · by_cases hb : b = i
      · rw [if_pos hb] at e2; rw [(hr ob e2).1] at e4; simp at e4
      · rw [if_neg ha] at e1; rw [if_neg hb] at e2
        exact h.inj a b oa ob q e1 e2 e3 e4
  · intro q v hv
    have hq : o.ptr ≠ some q := fun hq => by simp only [hd q hq] at hv; simp at hv
    obtain ⟨a, oa, e1, e2⟩ := h.owned q v ((hs q hq).symm.trans hv)
    refine ⟨a, oa, ?_, e2⟩
    simp only [upd]
    rw [if_neg, e1]
    rintro rfl
    rw [e] at e1; obtain rfl := Option.some.inj e1; exact hq e2
  · intro q hq
    by_cases h' : o.ptr = some q
    · exact hd q h'
    · exact (hs q h').trans (h.fresh q hq)
  · funext a
    simp only [look, upd]
    by_cases ha : a = i
    · simp only [if_pos ha]
      cases hr' : r with
      | none => rfl
      | some o' => simp [(hr o' hr').1]
    · simp only [if_neg ha]
      cases e1 : st.obj a with
      | none => rfl
      | some oa =>
        cases e2 : oa.ptr with
        | none => simp [e2]
        | some q => simp [e2, hs q (hne a oa q ha e1 e2)]

theorem free_spec {st : St} {x : Option ℕ} {i : ℕ} {o : Obj} {v : ℤ} (h : Inv st x) (hx : x = none ∨ x = some i) (e : st.obj i = some o) (hv : InI64 v) :
    ∃ s, free i v st = some s ∧ Inv s none ∧ look s = upd (look st) i (some v) ∧ s.obj = upd st.obj i (some ⟨v, none⟩) := by
  obtain ⟨hp, hh, h1, h2⟩ := drop_spec h hx e (some ⟨v, none⟩) (by intro o' ho'; obtain rfl := Option.some.inj ho'; exact ⟨rfl, hv⟩)
  refine ⟨_, ?_, h1, h2, rfl⟩
  rcases hh with ⟨ep, rfl⟩ | ⟨p, w, ep, ew, rfl⟩
  · simp only [free, e, ep]
  · simp only [free, e, ep, del, ew, Option.map_some]

theorem destroy_spec {st : St} {i : ℕ} {o : Obj} (h : Inv st none) (e : st.obj i = some o) :
    ∃ s, destroy i st = some s ∧ Inv s none ∧ look s = upd (look st) i none := by
  obtain ⟨hp, hh, h1, h2⟩ := drop_spec h (.inl rfl) e none (by simp)
  refine ⟨_, ?_, h1, h2⟩
  rcases hh with ⟨ep, rfl⟩ | ⟨p, w, ep, ew, rfl⟩
  · simp only [destroy, e, ep]
  · simp only [destroy, e, ep, del, ew, Option.map_some]

theorem upd_self {α : Type} (f : ℕ → α) (i : ℕ) : upd f i (f i) = f := by
  funext a; simp only [upd]; split
  · rename_i h; rw [h]
  · rfl

theorem upd_upd {α : Type} (f : ℕ → α) (i : ℕ) (a b : α) : upd (upd f i a) i b = upd f i b := by
  funext c; simp only [upd]; split <;> rfl

theorem demote_spec {st : St} {x : Option ℕ} {i : ℕ} {o : Obj} (h : Inv st x) (hx : x = none ∨ x = some i) (e : st.obj i = some o) :
    ∃ s, demote i st = some s ∧ Inv s none ∧ look s = look st := by
  cases ep : o.ptr with
  | none =>
    refine ⟨st, by simp only [demote, e, ep], ⟨fun a oa p e1 e2 => ?_, h.small, h.inj, h.owned, h.fresh⟩, rfl⟩
    obtain ⟨v, hv, hc⟩ := h.live a oa p e1 e2
    refine ⟨v, hv, fun _ => hc ?_⟩
    rcases hx with rfl | rfl
    · simp
    · intro h'; obtain rfl := Option.some.inj h'
      rw [e] at e1; obtain rfl := Option.some.inj e1; rw [ep] at e2; simp at e2
  | some p =>
    obtain ⟨v, hv, hc⟩ := h.live i o p e ep
    by_cases hz : InI64 v
    · obtain ⟨s, h1, h2, h3, _⟩ := free_spec (v := v) h hx e hz
      refine ⟨s, by simp only [demote, e, ep, hv, if_pos hz, h1], h2, ?_⟩
      rw [h3]
      have : look st i = some v := by simp only [look, e, ep, hv]
      rw [← this, upd_self]
    · refine ⟨st, by simp only [demote, e, ep, hv, if_neg hz], ⟨fun a oa q e1 e2 => ?_, h.small, h.inj, h.owned, h.fresh⟩, rfl⟩
      obtain ⟨w, hw, hc'⟩ := h.live a oa q e1 e2
      refine ⟨w, hw, fun _ => ?_⟩
      by_cases ha : a = i
      · subst ha
        rw [e] at e1; obtain rfl := Option.some.inj e1
        rw [ep] at e2; obtain rfl := Option.some.inj e2
        rw [hv] at hw; obtain rfl := Option.some.inj hw; exact hz
      · refine hc' ?_
        rcases hx with rfl | rfl
        · simp
        · simpa using fun h => ha h.symm

theorem create_spec {st : St} {i : ℕ} {v : ℤ} (h : Inv st none) (e : st.obj i = none) (hv : InI64 v) :
    ∃ s, create i v st = some s ∧ Inv s none ∧ look s = upd (look st) i (some v) ∧ s.obj = upd st.obj i (some ⟨v, none⟩) ∧ s.heap = st.heap ∧ s.next = st.next := by
  refine ⟨⟨st.heap, st.next, upd st.obj i (some ⟨v, none⟩)⟩, by simp only [create, e], ⟨?_, ?_, ?_, ?_, h.fresh⟩, ?_, rfl, rfl, rfl⟩
  · intro a oa p e1 e2
    simp only [upd] at e1
    by_cases ha : a = i
    · rw [if_pos ha] at e1; obtain rfl := Option.some.inj e1; simp at e2
    · rw [if_neg ha] at e1; exact h.live a oa p e1 e2
  · intro a oa e1 e2
    simp only [upd] at e1
    by_cases ha : a = i
    · rw [if_pos ha] at e1; obtain rfl := Option.some.inj e1; exact hv
    · rw [if_neg ha] at e1; exact h.small a oa e1 e2
  · intro a b oa ob p e1 e2 e3 e4
    simp only [upd] at e1 e2
    by_cases ha : a = i
    · rw [if_pos ha] at e1; obtain rfl := Option.some.inj e1; simp at e3
    · by_cases hb : b = i
      · rw [if_pos hb] at e2; obtain rfl := Option.some.inj e2; simp at e4
      · rw [if_neg ha] at e1; rw [if_neg hb] at e2
        exact h.inj a b oa ob p e1 e2 e3 e4
  · intro p w hw
    obtain ⟨a, oa, e1, e2⟩ := h.owned p w hw
    refine ⟨a, oa, ?_, e2⟩
    simp only [upd]; rw [if_neg, e1]; rintro rfl; rw [e] at e1; simp at e1
  · funext a
    simp only [look, upd]
    by_cases ha : a = i
    · simp [ha]
    · simp only [if_neg ha]

theorem steal_spec {st : St} {i j : ℕ} {oi oj : Obj} (h : Inv st none) (hij : i ≠ j) (ei : st.obj i = some oi) (epi : oi.ptr = none) (ej : st.obj j = some oj) :
    ∃ s, steal i j st = some s ∧ Inv s none ∧ look s = upd (upd (look st) i (look st j)) j (some 0) := by
  have key : ∀ a oa, upd (upd st.obj i (some oj)) j (some ⟨0, none⟩) a = some oa → (a = j ∧ oa = ⟨0, none⟩) ∨ (a = i ∧ oa = oj) ∨ (a ≠ j ∧ a ≠ i ∧ st.obj a = some oa) := by
    intro a oa e1
    simp only [upd] at e1
    by_cases h1 : a = j
    · rw [if_pos h1] at e1; exact .inl ⟨h1, (Option.some.inj e1).symm⟩
    · rw [if_neg h1] at e1
      by_cases h2 : a = i
      · rw [if_pos h2] at e1; exact .inr (.inl ⟨h2, (Option.some.inj e1).symm⟩)
      · rw [if_neg h2] at e1; exact .inr (.inr ⟨h1, h2, e1⟩)
  refine ⟨⟨st.heap, st.next, upd (upd st.obj i (some oj)) j (some ⟨0, none⟩)⟩, by simp only [steal, ej], ⟨?_, ?_, ?_, ?_, h.fresh⟩, ?_⟩
  · intro a oa p e1 e2
    rcases key a oa e1 with ⟨-, rfl⟩ | ⟨-, rfl⟩ | ⟨-, -, e3⟩
    · simp at e2
    · obtain ⟨v, hv, hc⟩ := h.live j oa p ej e2
      exact ⟨v, hv, fun _ => hc (by simp)⟩
    · obtain ⟨v, hv, hc⟩ := h.live a oa p e3 e2
      exact ⟨v, hv, fun _ => hc (by simp)⟩
  · intro a oa e1 e2
    rcases key a oa e1 with ⟨-, rfl⟩ | ⟨-, rfl⟩ | ⟨-, -, e3⟩
    · simp only; decide
    · exact h.small j oa ej e2
    · exact h.small a oa e3 e2
  · intro a b oa ob p e1 e2 e3 e4
    rcases key a oa e1 with ⟨-, rfl⟩ | ⟨ha, rfl⟩ | ⟨ha1, ha2, e5⟩
    · simp at e3
    · rcases key b ob e2 with ⟨-, rfl⟩ | ⟨hb, rfl⟩ | ⟨hb1, hb2, e6⟩
      · simp at e4
      · rw [ha, hb]
      · exact absurd (h.inj b j ob oa p e6 ej e4 e3) hb1
    · rcases key b ob e2 with ⟨-, rfl⟩ | ⟨hb, rfl⟩ | ⟨hb1, hb2, e6⟩
      · simp at e4
      · exact absurd (h.inj a j oa ob p e5 ej e3 e4) ha1
      · exact h.inj a b oa ob p e5 e6 e3 e4
  · intro p v hv
    obtain ⟨a, oa, e1, e2⟩ := h.owned p v hv
    simp only [upd]
    by_cases h1 : a = j
    · subst h1
      rw [ej] at e1; obtain rfl := Option.some.inj e1
      exact ⟨i, oj, by rw [if_neg hij, if_pos rfl], e2⟩
    · refine ⟨a, oa, ?_, e2⟩
      rw [if_neg h1, if_neg, e1]
      rintro rfl
      rw [ei] at e1; obtain rfl := Option.some.inj e1; rw [epi] at e2; simp at e2
  · funext a
    simp only [look, upd]
    by_cases h1 : a = j
    · simp [h1]
    · simp only [if_neg h1]
      by_cases h2 : a = i
      · simp only [if_pos h2, ej]
      · simp only [if_neg h2]

/-! ## the calls -/

theorem obj_of_look {st : St} {i : ℕ} {v : ℤ} (h : look st i = some v) : ∃ o, st.obj i = some o := by
  cases e : st.obj i with
  | none => simp [look, e] at h
  | some o => exact ⟨o, rfl⟩

theorem obj_none {st : St} {x : Option ℕ} {i : ℕ} (h : Inv st x) (e : look st i = none) : st.obj i = none := by
  cases e1 : st.obj i with
  | none => rfl
  | some o =>
    cases e2 : o.ptr with
    | none => simp [look, e1, e2] at e
    | some p =>
      obtain ⟨v, hv, -⟩ := h.live i o p e1 e2
      simp [look, e1, e2, hv] at e

theorem small_iff {st : St} {i : ℕ} {v : ℤ} (h : Inv st none) (e : look st i = some v) : isSmall st i = true ↔ InI64 v := by
  obtain ⟨o, eo⟩ := obj_of_look e
  cases ep : o.ptr with
  | none =>
    have := h.small i o eo ep
    simp only [look, eo, ep, Option.some.injEq] at e
    simp [isSmall, eo, ep, ← e, this]
  | some p =>
    obtain ⟨w, hw, hc⟩ := h.live i o p eo ep
    simp only [look, eo, ep, hw, Option.some.injEq] at e
    simp [isSmall, eo, ep, ← e, hc (by simp)]

theorem ensure_spec {st : St} {i : ℕ} {v : ℤ} (h : Inv st none) (e : look st i = some v) :
    ∃ s o p, ensure i st = some s ∧ Inv s (some i) ∧ look s = look st ∧ s.obj i = some o ∧ o.ptr = some p := by
  obtain ⟨o, eo⟩ := obj_of_look e
  cases ep : o.ptr with
  | none =>
    obtain ⟨s, h1, h2, h3, h4⟩ := alloc_spec o.val h (.inl rfl) eo ep
    rw [if_pos (h.small i o eo ep)] at h2
    refine ⟨s, _, st.next, by simp only [ensure, eo, ep, h1], h2, ?_, by rw [h4]; exact if_pos rfl, rfl⟩
    have : look st i = some o.val := by simp only [look, eo, ep]
    rw [h3, ← this, upd_self]
  | some p => exact ⟨st, o, p, by simp only [ensure, eo, ep], h.weaken _, rfl, eo, ep⟩

theorem modify_spec {st : St} {x : Option ℕ} {i p : ℕ} {o : Obj} (z : ℤ) (h : Inv st x) (hx : x = none ∨ x = some i) (e : st.obj i = some o) (ep : o.ptr = some p) :
    ∃ s, (write i z st).bind (demote i) = some s ∧ Inv s none ∧ look s = upd (look st) i (some z) := by
  obtain ⟨s, h1, h2, h3, h4⟩ := write_spec z h hx e ep
  rw [← h4] at e
  obtain ⟨t, k1, k2, k3⟩ := demote_spec h2 (by split <;> simp) e
  exact ⟨t, by rw [h1]; exact k1, k2, by rw [k3, h3]⟩

theorem createBig_spec {st : St} {i : ℕ} {z : ℤ} (h : Inv st none) (e : look st i = none) (hz : ¬ InI64 z) :
    ∃ s, (create i 0 st).bind (alloc i z) = some s ∧ Inv s none ∧ look s = upd (look st) i (some z) := by
  obtain ⟨s, h1, h2, h3, h4, -, -⟩ := create_spec (v := 0) h (obj_none h e) (by decide)
  obtain ⟨t, k1, k2, k3, -⟩ := alloc_spec (i := i) z h2 (.inl rfl) (by rw [h4]; exact if_pos rfl) rfl
  rw [if_neg hz] at k2
  exact ⟨t, by rw [h1]; exact k1, k2, by rw [k3, h3, upd_upd]⟩

/-- the GMP number of a temporary that is freed leaves nothing -/
theorem upd_fresh {st : St} {x : Option ℕ} (h : Inv st x) (z : ℤ) : upd (upd st.heap st.next (some z)) st.next none = st.heap := by
  rw [upd_upd, ← h.fresh st.next le_rfl, upd_self]

theorem bump {st : St} (h : Inv st none) : Inv ⟨st.heap, st.next + 1, st.obj⟩ none :=
  ⟨h.live, h.small, h.inj, h.owned, fun p hp => h.fresh p (by simp only at hp; omega)⟩

/-- what the calls mean for the integers that the objects stand for (`none`: no object) -/
def spec (m : ℕ → Option ℤ) : Op → (ℕ → Option ℤ)
  | .ctor i v => upd m i (some v)
  | .ctorU i v => upd m i (some v)
  | .ctorStr i r => match r with | none => m | some z => upd m i (some z)
  | .ctorMpz i z => upd m i (some z)
  | .copyCtor i j => upd m i (m j)
  | .moveCtor i j => upd (upd m i (m j)) j (some 0)
  | .dtor i => upd m i none
  | .copyAssign i j => upd m i (m j)
  | .moveAssign i j => if i = j then m else upd (upd m i (m j)) j (some 0)
  | .assign i v => upd m i (some v)
  | .assignU i v => upd m i (some v)
  | .swap i j => upd (upd m i (m j)) j (m i)
  | .arith f i j => upd m i (some (f.fn ((m i).getD 0) ((m j).getD 0)))
  | .result f k i j => upd m k (some (f.fn ((m i).getD 0) ((m j).getD 0)))
  | .shr i n => upd m i (some ((m i).getD 0 / 2 ^ n))
  | .shl i n => upd m i (some ((m i).getD 0 * 2 ^ n))
  | .addmul neg i j k => upd m i (some (if neg then (m i).getD 0 - (m j).getD 0 * (m k).getD 0 else (m i).getD 0 + (m j).getD 0 * (m k).getD 0))
  | .quot k i j => if m j = some 0 then m else upd m k (some (((m i).getD 0).tdiv ((m j).getD 0)))
  | .rem k i j => if m j = some 0 then m else upd m k (some (((m i).getD 0).tmod ((m j).getD 0)))
  | .fdivQ i j k => if m k = some 0 then m else upd m i (some (((m j).getD 0).fdiv ((m k).getD 0)))
  | .fdivR i j k => if m k = some 0 then m else upd m i (some (((m j).getD 0).fmod ((m k).getD 0)))

/-- the calls of a correct program: constructors where there is no object, all others on objects that are alive; no small `INT64_MIN` as an operand of `+` or behind `-`, no `INT64_MIN % -1` in `fdiv_r`, no big number divided by zero -/
def Allowed (m : ℕ → Option ℤ) : Op → Prop
  | .ctor i v => m i = none ∧ InI64 v
  | .ctorU i _ => m i = none
  | .ctorStr i _ => m i = none
  | .ctorMpz i _ => m i = none
  | .copyCtor i j => m i = none ∧ m j ≠ none
  | .moveCtor i j => m i = none ∧ m j ≠ none
  | .dtor i => m i ≠ none
  | .copyAssign i j => m i ≠ none ∧ m j ≠ none
  | .moveAssign i j => m i ≠ none ∧ m j ≠ none
  | .assign i v => m i ≠ none ∧ InI64 v
  | .assignU i _ => m i ≠ none
  | .swap i j => m i ≠ none ∧ m j ≠ none
  | .arith f i j => m i ≠ none ∧ m j ≠ none ∧ (f = .mul ∨ m j ≠ some i64min)
  | .result f k i j => m k = none ∧ m i ≠ none ∧ m j ≠ none ∧ (f = .mul ∨ m j ≠ some i64min) ∧ (f = .add → m i ≠ some i64min)
  | .shr i _ => m i ≠ none
  | .shl i _ => m i ≠ none
  | .addmul _ i j k => m i ≠ none ∧ m j ≠ none ∧ m k ≠ none
  | .quot k i j => m k = none ∧ m i ≠ none ∧ m j ≠ none ∧ (m j ≠ some 0 ∨ InI64 ((m i).getD 0))
  | .rem k i j => m k = none ∧ m i ≠ none ∧ m j ≠ none ∧ (m j ≠ some 0 ∨ InI64 ((m i).getD 0))
  | .fdivQ i j k => m i ≠ none ∧ m j ≠ none ∧ m k ≠ none ∧ (m k ≠ some 0 ∨ InI64 ((m j).getD 0))
  | .fdivR i j k => m i ≠ none ∧ m j ≠ none ∧ m k ≠ none ∧ (m k ≠ some 0 ∨ InI64 ((m j).getD 0)) ∧ (m j ≠ some i64min ∨ m k ≠ some (-1))

theorem shr_small {v : ℤ} (h : InI64 v) (n : ℕ) : InI64 (v / 2 ^ n) := by
  obtain ⟨h1, h2⟩ := h
  have hp : (0 : ℤ) < 2 ^ n := by positivity
  have h1' : (1 : ℤ) ≤ 2 ^ n := hp
  unfold i64min at h1
  unfold i64max at h2
  unfold InI64 i64min i64max
  constructor
  · rw [Int.le_ediv_iff_mul_le hp]; nlinarith
  · have : v / 2 ^ n < 9223372036854775808 := by
      rw [Int.ediv_lt_iff_lt_mul hp]; nlinarith
    omega

theorem bad_eq {f : Arith} {b : ℤ} (h : f.bad b) : f ≠ .mul ∧ b = i64min := by
  cases f <;> simp_all [Arith.bad]

theorem arith_spec {f : Arith} {i j : ℕ} {a b : ℤ} {st : St} (h : Inv st none) (ea : look st i = some a) (eb : look st j = some b) (hb : f = .mul ∨ b ≠ i64min) :
    ∃ s, arithStep f i j st = some s ∧ Inv s none ∧ look s = upd (look st) i (some (f.fn a b)) := by
  unfold arithStep
  rw [ea, eb, Option.bind_some, Option.bind_some]
  obtain ⟨o, eo⟩ := obj_of_look ea
  split
  · rename_i hc
    obtain ⟨s, h1, h2, h3, -⟩ := free_spec h (.inl rfl) eo hc.2.2
    exact ⟨s, h1, h2, h3⟩
  · obtain ⟨s, o', p, h1, h2, h3, h4, h5⟩ := ensure_spec h ea
    rw [h1, Option.bind_some, h3, ea, eb, Option.bind_some, Option.bind_some, if_neg]
    · obtain ⟨t, k1, k2, k3⟩ := modify_spec (f.fn a b) h2 (.inr rfl) h4 h5
      exact ⟨t, k1, k2, by rw [k3, h3]⟩
    · rintro ⟨-, hbad⟩
      obtain ⟨h6, h7⟩ := bad_eq hbad
      rcases hb with hb | hb
      · exact h6 hb
      · exact hb h7

theorem result_spec {f : Arith} {k i j : ℕ} {a b : ℤ} {st : St} (h : Inv st none) (ek : look st k = none) (ea : look st i = some a) (eb : look st j = some b) (hb : f = .mul ∨ b ≠ i64min)
    (ha : f = .add → a ≠ i64min) : ∃ s, resultStep f k i j st = some s ∧ Inv s none ∧ look s = upd (look st) k (some (f.fn a b)) := by
  unfold resultStep
  rw [ea, eb, Option.bind_some, Option.bind_some]
  split
  · rename_i hc
    obtain ⟨s, h1, h2, h3, -⟩ := create_spec h (obj_none h ek) hc.2.2
    exact ⟨s, h1, h2, h3⟩
  · rw [if_neg]
    · obtain ⟨s, h1, h2, h3, h4, -, -⟩ := create_spec (v := 0) h (obj_none h ek) (by decide)
      obtain ⟨t, k1, k2, k3, k4⟩ := alloc_spec (i := k) 0 h2 (.inl rfl) (by rw [h4]; exact if_pos rfl) rfl
      obtain ⟨u, l1, l2, l3⟩ := modify_spec (i := k) (f.fn a b) k2 (by split <;> simp) (by rw [k4]; exact if_pos rfl) rfl
      refine ⟨u, by rw [h1, Option.bind_some, k1, Option.bind_some]; exact l1, l2, ?_⟩
      rw [l3, k3, h3, upd_upd, upd_upd]
    · rintro (⟨-, hbad⟩ | ⟨h8, -, -, hbad⟩)
      · obtain ⟨h6, h7⟩ := bad_eq hbad
        rcases hb with hb | hb
        · exact h6 hb
        · exact hb h7
      · exact ha h8 (bad_eq hbad).2

theorem addmul_spec {neg : Bool} {i j k : ℕ} {a b c : ℤ} {st : St} (h : Inv st none) (ea : look st i = some a) (eb : look st j = some b) (ec : look st k = some c) :
    ∃ s, step st (.addmul neg i j k) = some s ∧ Inv s none ∧ look s = upd (look st) i (some (if neg then a - b * c else a + b * c)) := by
  simp only [step]
  rw [ea, eb, ec, Option.bind_some, Option.bind_some, Option.bind_some]
  obtain ⟨o, eo⟩ := obj_of_look ea
  by_cases hc : isSmall st i = true ∧ isSmall st j = true ∧ isSmall st k = true ∧ InI64 (if neg = true then a - b * c else a + b * c)
  · rw [if_pos hc]
    obtain ⟨s, h1, h2, h3, -⟩ := free_spec h (.inl rfl) eo hc.2.2.2
    exact ⟨s, h1, h2, h3⟩
  · rw [if_neg hc]
    obtain ⟨s, o', p, h1, h2, h3, h4, h5⟩ := ensure_spec h ea
    rw [h1, Option.bind_some, h3, ea, eb, ec, Option.bind_some, Option.bind_some, Option.bind_some]
    obtain ⟨t, k1, k2, k3⟩ := modify_spec (if neg = true then a - b * c else a + b * c) h2 (.inr rfl) h4 h5
    exact ⟨t, k1, k2, by rw [k3, h3]⟩

theorem div_spec {f : ℤ → ℤ → ℤ} {spc : ℕ → St → Option St} {k i j : ℕ} {a b : ℤ} {st : St} (h : Inv st none) (ek : look st k = none) (ea : look st i = some a) (eb : look st j = some b)
    (h0 : b ≠ 0 ∨ InI64 a) (hf : InI64 a → InI64 b → b ≠ 0 → ¬ (a = i64min ∧ b = -1) → InI64 (f a b))
    (hs : a = i64min → b = -1 → ∃ s, spc k st = some s ∧ Inv s none ∧ look s = upd (look st) k (some (f a b))) :
    ∃ s, divStep f spc k i j st = some s ∧ Inv s none ∧ look s = if b = 0 then look st else upd (look st) k (some (f a b)) := by
  unfold divStep
  rw [ea, eb, Option.bind_some, Option.bind_some]
  by_cases hc : isSmall st i = true ∧ isSmall st j = true
  · rw [if_pos hc]
    by_cases hb : b = 0
    · rw [if_pos hb, if_pos hb]; exact ⟨st, rfl, h, rfl⟩
    · rw [if_neg hb, if_neg hb]
      split
      · rename_i hm; exact hs hm.1 hm.2
      · rename_i hm
        obtain ⟨s, h1, h2, h3, -⟩ := create_spec h (obj_none h ek) (hf ((small_iff h ea).1 hc.1) ((small_iff h eb).1 hc.2) hb hm)
        exact ⟨s, h1, h2, h3⟩
  · have hb : b ≠ 0 := by
      rintro rfl
      rcases h0 with h0 | h0
      · exact h0 rfl
      · exact hc ⟨(small_iff h ea).2 h0, (small_iff h eb).2 (by decide)⟩
    rw [if_neg hc, if_neg hb, if_neg hb]
    obtain ⟨s, h1, h2, h3, h4, -, -⟩ := create_spec (v := 0) h (obj_none h ek) (by decide)
    obtain ⟨t, k1, k2, k3, k4⟩ := alloc_spec (i := k) 0 h2 (.inl rfl) (by rw [h4]; exact if_pos rfl) rfl
    obtain ⟨u, l1, l2, l3⟩ := modify_spec (i := k) (f a b) k2 (by split <;> simp) (by rw [k4]; exact if_pos rfl) rfl
    refine ⟨u, by rw [h1, Option.bind_some, k1, Option.bind_some]; exact l1, l2, ?_⟩
    rw [l3, k3, h3, upd_upd, upd_upd]

theorem floor_spec {q g : ℤ → ℤ → ℤ} {spc : ℕ → St → Option St} {i j k : ℕ} {a b c : ℤ} {st : St} (h : Inv st none) (ec : look st i = some c) (ea : look st j = some a) (eb : look st k = some b)
    (h0 : b ≠ 0 ∨ InI64 a) (hq : b ≠ 0 → q a b = g a b) (hf : InI64 a → InI64 b → b ≠ 0 → ¬ (a = i64min ∧ b = -1) → InI64 (g a b))
    (hs : a = i64min → b = -1 → ∃ s, spc i st = some s ∧ Inv s none ∧ look s = upd (look st) i (some (g a b))) :
    ∃ s, floorStep q g spc i j k st = some s ∧ Inv s none ∧ look s = if b = 0 then look st else upd (look st) i (some (g a b)) := by
  unfold floorStep
  rw [ea, eb, Option.bind_some, Option.bind_some]
  obtain ⟨o, eo⟩ := obj_of_look ec
  by_cases hc : isSmall st j = true ∧ isSmall st k = true
  · rw [if_pos hc]
    by_cases hb : b = 0
    · rw [if_pos hb, if_pos hb]; exact ⟨st, rfl, h, rfl⟩
    · rw [if_neg hb, if_neg hb]
      split
      · rename_i hm; exact hs hm.1 hm.2
      · rename_i hm
        rw [hq hb]
        obtain ⟨s, h1, h2, h3, -⟩ := free_spec h (.inl rfl) eo (hf ((small_iff h ea).1 hc.1) ((small_iff h eb).1 hc.2) hb hm)
        exact ⟨s, h1, h2, h3⟩
  · have hb : b ≠ 0 := by
      rintro rfl
      rcases h0 with h0 | h0
      · exact h0 rfl
      · exact hc ⟨(small_iff h ea).2 h0, (small_iff h eb).2 (by decide)⟩
    rw [if_neg hc, if_neg hb]
    obtain ⟨s, o', p, h1, h2, h3, h4, h5⟩ := ensure_spec h ec
    rw [h1, Option.bind_some, h3, ea, eb, Option.bind_some, Option.bind_some, if_neg hb]
    obtain ⟨t, k1, k2, k3⟩ := modify_spec (g a b) h2 (.inr rfl) h4 h5
    exact ⟨t, k1, k2, by rw [k3, h3]⟩

theorem step_spec {st : St} {op : Op} (h : Inv st none) (ha : Allowed (look st) op) : ∃ s, step st op = some s ∧ Inv s none ∧ look s = spec (look st) op := by
  have big : ∀ {v : ℕ}, ¬ ((v : ℤ) ≤ i64max) → ¬ InI64 (v : ℤ) := fun hv hi => hv hi.2
  have sml : ∀ {v : ℕ}, (v : ℤ) ≤ i64max → InI64 (v : ℤ) := fun {v} hv => ⟨by unfold i64min; omega, hv⟩
  cases op
  case ctor i v =>
    obtain ⟨s, h1, h2, h3, -⟩ := create_spec h (obj_none h ha.1) ha.2
    exact ⟨s, h1, h2, h3⟩
  case ctorU i v =>
    simp only [step]
    split
    · rename_i hv
      obtain ⟨s, h1, h2, h3, -⟩ := create_spec h (obj_none h ha) (sml hv)
      exact ⟨s, h1, h2, h3⟩
    · rename_i hv
      exact createBig_spec h ha (big hv)
  case ctorStr i r =>
    cases r with
    | none =>
      refine ⟨_, rfl, ?_, ?_⟩
      · rw [upd_fresh h]; exact bump h
      · rw [upd_fresh h]; rfl
    | some z =>
      simp only [step]
      split
      · rename_i hz
        obtain ⟨s, h1, h2, h3, h4, h5, h6⟩ := create_spec h (obj_none h ha) hz
        refine ⟨_, by rw [h1]; rfl, ?_, ?_⟩
        · show Inv ⟨upd (upd s.heap s.next (some z)) s.next none, s.next + 1, s.obj⟩ none
          rw [upd_fresh h2]; exact bump h2
        · show look ⟨upd (upd s.heap s.next (some z)) s.next none, s.next + 1, s.obj⟩ = _
          rw [upd_fresh h2]; exact h3
      · rename_i hz
        exact createBig_spec h ha hz
  case ctorMpz i z =>
    simp only [step]
    split
    · rename_i hz
      obtain ⟨s, h1, h2, h3, -⟩ := create_spec h (obj_none h ha) hz
      exact ⟨s, h1, h2, h3⟩
    · rename_i hz
      exact createBig_spec h ha hz
  case copyCtor i j =>
    obtain ⟨h1, h2⟩ := ha
    obtain ⟨z, ez⟩ := Option.ne_none_iff_exists'.1 h2
    simp only [step, spec]
    rw [ez, Option.bind_some]
    split
    · rename_i hs
      obtain ⟨s, h1, h2, h3, -⟩ := create_spec h (obj_none h h1) ((small_iff h ez).1 hs)
      exact ⟨s, h1, h2, h3⟩
    · rename_i hs
      exact createBig_spec h h1 fun hz => hs ((small_iff h ez).2 hz)
  case moveCtor i j =>
    obtain ⟨h1, h2⟩ := ha
    obtain ⟨z, ez⟩ := Option.ne_none_iff_exists'.1 h2
    obtain ⟨o, eo⟩ := obj_of_look ez
    have hij : i ≠ j := by rintro rfl; exact h2 h1
    simp only [step]
    rw [if_neg hij]
    obtain ⟨s, k1, k2, k3, k4, -, -⟩ := create_spec (v := 0) h (obj_none h h1) (by decide)
    obtain ⟨t, l1, l2, l3⟩ := steal_spec (oj := o) k2 hij (by rw [k4]; exact if_pos rfl) rfl (by rw [k4]; simp only [upd]; rw [if_neg (Ne.symm hij), eo])
    refine ⟨t, by rw [k1]; exact l1, l2, ?_⟩
    rw [l3, k3]
    simp only [spec]
    rw [upd_upd]
    congr 2
    simp only [upd]; rw [if_neg (Ne.symm hij)]
  case dtor i =>
    obtain ⟨z, ez⟩ := Option.ne_none_iff_exists'.1 ha
    obtain ⟨o, eo⟩ := obj_of_look ez
    exact destroy_spec h eo
  case copyAssign i j =>
    obtain ⟨h1, h2⟩ := ha
    obtain ⟨z, ez⟩ := Option.ne_none_iff_exists'.1 h2
    obtain ⟨w, ew⟩ := Option.ne_none_iff_exists'.1 h1
    obtain ⟨o, eo⟩ := obj_of_look ew
    simp only [step, spec]
    by_cases hij : i = j
    · rw [if_pos hij]
      refine ⟨st, rfl, h, ?_⟩
      rw [← hij, upd_self]
    · rw [if_neg hij, ez, Option.bind_some]
      split
      · rename_i hs
        obtain ⟨s, k1, k2, k3, -⟩ := free_spec h (.inl rfl) eo ((small_iff h ez).1 hs)
        exact ⟨s, k1, k2, k3⟩
      · rename_i hs
        have hz : ¬ InI64 z := fun hz => hs ((small_iff h ez).2 hz)
        split
        · rename_i hsi
          have ep : o.ptr = none := by simpa [isSmall, eo] using hsi
          obtain ⟨s, k1, k2, k3, -⟩ := alloc_spec z h (.inl rfl) eo ep
          rw [if_neg hz] at k2
          exact ⟨s, k1, k2, k3⟩
        · rename_i hsi
          obtain ⟨p, ep⟩ : ∃ p, o.ptr = some p := by
            cases ep : o.ptr with
            | none => simp [isSmall, eo, ep] at hsi
            | some p => exact ⟨p, rfl⟩
          obtain ⟨s, k1, k2, k3, -⟩ := write_spec z h (.inl rfl) eo ep
          rw [if_neg hz] at k2
          exact ⟨s, k1, k2, k3⟩
  case moveAssign i j =>
    obtain ⟨h1, h2⟩ := ha
    obtain ⟨z, ez⟩ := Option.ne_none_iff_exists'.1 h2
    obtain ⟨w, ew⟩ := Option.ne_none_iff_exists'.1 h1
    obtain ⟨o, eo⟩ := obj_of_look ew
    obtain ⟨oj, eoj⟩ := obj_of_look ez
    simp only [step, spec]
    by_cases hij : i = j
    · rw [if_pos hij, if_pos hij]; exact ⟨st, rfl, h, rfl⟩
    · rw [if_neg hij, if_neg hij]
      obtain ⟨s, k1, k2, k3, k4⟩ := free_spec (v := 0) h (.inl rfl) eo (by decide)
      obtain ⟨t, l1, l2, l3⟩ := steal_spec (oj := oj) k2 hij (by rw [k4]; exact if_pos rfl) rfl (by rw [k4]; simp only [upd]; rw [if_neg (Ne.symm hij), eoj])
      refine ⟨t, by rw [k1]; exact l1, l2, ?_⟩
      rw [l3, k3, upd_upd]
      congr 2
      simp only [upd]; rw [if_neg (Ne.symm hij)]
  case assign i v =>
    obtain ⟨z, ez⟩ := Option.ne_none_iff_exists'.1 ha.1
    obtain ⟨o, eo⟩ := obj_of_look ez
    obtain ⟨s, k1, k2, k3, -⟩ := free_spec h (.inl rfl) eo ha.2
    exact ⟨s, k1, k2, k3⟩
  case assignU i v =>
    obtain ⟨z, ez⟩ := Option.ne_none_iff_exists'.1 ha
    obtain ⟨o, eo⟩ := obj_of_look ez
    simp only [step, spec]
    split
    · rename_i hv
      obtain ⟨s, k1, k2, k3, -⟩ := free_spec h (.inl rfl) eo (sml hv)
      exact ⟨s, k1, k2, k3⟩
    · rename_i hv
      split
      · rename_i hsi
        obtain ⟨s, k1, k2, k3, k4⟩ := free_spec (v := 0) h (.inl rfl) eo (by decide)
        obtain ⟨t, l1, l2, l3, -⟩ := alloc_spec (i := i) (v : ℤ) k2 (.inl rfl) (by rw [k4]; exact if_pos rfl) rfl
        rw [if_neg (big hv)] at l2
        exact ⟨t, by rw [k1]; exact l1, l2, by rw [l3, k3, upd_upd]⟩
      · rename_i hsi
        obtain ⟨p, ep⟩ : ∃ p, o.ptr = some p := by
          cases ep : o.ptr with
          | none => simp [isSmall, eo, ep] at hsi
          | some p => exact ⟨p, rfl⟩
        obtain ⟨s, k1, k2, k3, -⟩ := write_spec (v : ℤ) h (.inl rfl) eo ep
        rw [if_neg (big hv)] at k2
        exact ⟨s, k1, k2, k3⟩
  case swap i j =>
    obtain ⟨h1, h2⟩ := ha
    obtain ⟨z, ez⟩ := Option.ne_none_iff_exists'.1 h2
    obtain ⟨w, ew⟩ := Option.ne_none_iff_exists'.1 h1
    obtain ⟨oi, ei⟩ := obj_of_look ew
    obtain ⟨oj, ej⟩ := obj_of_look ez
    have key : ∀ a oa, upd (upd st.obj i (some oj)) j (some oi) a = some oa → st.obj (if a = j then i else if a = i then j else a) = some oa := by
      intro a oa e1
      simp only [upd] at e1
      by_cases ha1 : a = j
      · rw [if_pos ha1] at e1 ⊢; rw [ei]; exact e1
      · rw [if_neg ha1] at e1 ⊢
        by_cases ha2 : a = i
        · rw [if_pos ha2] at e1 ⊢; rw [ej]; exact e1
        · rw [if_neg ha2] at e1 ⊢; exact e1
    refine ⟨⟨st.heap, st.next, upd (upd st.obj i (some oj)) j (some oi)⟩, by simp only [step, ei, ej], ⟨?_, ?_, ?_, ?_, h.fresh⟩, ?_⟩
    · intro a oa p e1 e2
      obtain ⟨v, hv, hc⟩ := h.live _ oa p (key a oa e1) e2
      exact ⟨v, hv, fun _ => hc (by simp)⟩
    · intro a oa e1 e2
      exact h.small _ oa (key a oa e1) e2
    · intro a b oa ob p e1 e2 e3 e4
      have := h.inj _ _ oa ob p (key a oa e1) (key b ob e2) e3 e4
      split_ifs at this <;> simp_all
    · intro p v hv
      obtain ⟨a, oa, e1, e2⟩ := h.owned p v hv
      refine ⟨if a = j then i else if a = i then j else a, oa, ?_, e2⟩
      simp only [upd]
      by_cases ha1 : a = j
      · subst ha1
        rw [ej] at e1
        by_cases hij : i = a
        · subst hij; rw [ei] at ej; simp [← e1, Option.some.inj ej]
        · simp [hij, e1]
      · by_cases ha2 : a = i
        · subst ha2; rw [ei] at e1; simp [ha1, e1]
        · simp [ha1, ha2, e1]
    · funext a
      simp only [look, upd, spec]
      by_cases ha1 : a = j
      · simp [ha1, ei]
      · by_cases ha2 : a = i
        · subst ha2; simp [ha1, ej]
        · simp [ha1, ha2]
  case arith f i j =>
    obtain ⟨h1, h2, h3⟩ := ha
    obtain ⟨a, ea⟩ := Option.ne_none_iff_exists'.1 h1
    obtain ⟨b, eb⟩ := Option.ne_none_iff_exists'.1 h2
    simp only [step, spec]
    rw [eb] at h3
    rw [ea, eb]
    exact arith_spec h ea eb (h3.imp id fun h e => h (congrArg some e))
  case result f k i j =>
    obtain ⟨h0, h1, h2, h3, h4⟩ := ha
    obtain ⟨a, ea⟩ := Option.ne_none_iff_exists'.1 h1
    obtain ⟨b, eb⟩ := Option.ne_none_iff_exists'.1 h2
    simp only [step, spec]
    rw [eb] at h3
    rw [ea] at h4
    rw [ea, eb]
    exact result_spec h h0 ea eb (h3.imp id fun h e => h (congrArg some e)) fun hf e => h4 hf (congrArg some e)
  case shr i n =>
    obtain ⟨a, ea⟩ := Option.ne_none_iff_exists'.1 ha
    obtain ⟨o, eo⟩ := obj_of_look ea
    simp only [step, spec]
    rw [ea, Option.bind_some, Option.getD_some]
    split
    · rename_i hs
      obtain ⟨s, k1, k2, k3, -⟩ := free_spec h (.inl rfl) eo (shr_small ((small_iff h ea).1 hs) n)
      exact ⟨s, k1, k2, k3⟩
    · rename_i hs
      obtain ⟨p, ep⟩ : ∃ p, o.ptr = some p := by
        cases ep : o.ptr with
        | none => simp [isSmall, eo, ep] at hs
        | some p => exact ⟨p, rfl⟩
      exact modify_spec _ h (.inl rfl) eo ep
  case shl i n =>
    obtain ⟨a, ea⟩ := Option.ne_none_iff_exists'.1 ha
    simp only [step, spec]
    obtain ⟨s, o', p, h1, h2, h3, h4, h5⟩ := ensure_spec h ea
    rw [h1, Option.bind_some, h3, ea, Option.bind_some, Option.getD_some]
    obtain ⟨t, k1, k2, k3⟩ := modify_spec (a * 2 ^ n) h2 (.inr rfl) h4 h5
    exact ⟨t, k1, k2, by rw [k3, h3]⟩
  case addmul neg i j k =>
    obtain ⟨h1, h2, h3⟩ := ha
    obtain ⟨a, ea⟩ := Option.ne_none_iff_exists'.1 h1
    obtain ⟨b, eb⟩ := Option.ne_none_iff_exists'.1 h2
    obtain ⟨c, ec⟩ := Option.ne_none_iff_exists'.1 h3
    obtain ⟨s, k1, k2, k3⟩ := addmul_spec (neg := neg) h ea eb ec
    refine ⟨s, k1, k2, ?_⟩
    rw [k3]; simp only [spec, ea, eb, ec, Option.getD_some]
  case quot k i j =>
    obtain ⟨h0, h1, h2, h3⟩ := ha
    obtain ⟨a, ea⟩ := Option.ne_none_iff_exists'.1 h1
    obtain ⟨b, eb⟩ := Option.ne_none_iff_exists'.1 h2
    rw [ea, eb, Option.getD_some] at h3
    simp only [step, spec, ea, eb, Option.getD_some, Option.some.injEq]
    refine div_spec h h0 ea eb (h3.imp (fun h e => h (congrArg some e)) id) (fun ha hb => ZZ.tdiv_inI64 ha hb) ?_
    rintro rfl rfl
    exact createBig_spec h h0 (by decide)
  case rem k i j =>
    obtain ⟨h0, h1, h2, h3⟩ := ha
    obtain ⟨a, ea⟩ := Option.ne_none_iff_exists'.1 h1
    obtain ⟨b, eb⟩ := Option.ne_none_iff_exists'.1 h2
    rw [ea, eb, Option.getD_some] at h3
    simp only [step, spec, ea, eb, Option.getD_some, Option.some.injEq]
    refine div_spec h h0 ea eb (h3.imp (fun h e => h (congrArg some e)) id) (fun ha hb _ _ => ZZ.tmod_inI64 ha hb) ?_
    rintro rfl rfl
    obtain ⟨s, k1, k2, k3, -⟩ := create_spec (v := 0) h (obj_none h h0) (by decide)
    exact ⟨s, k1, k2, k3⟩
  case fdivQ i j k =>
    obtain ⟨h0, h1, h2, h3⟩ := ha
    obtain ⟨c, ec⟩ := Option.ne_none_iff_exists'.1 h0
    obtain ⟨a, ea⟩ := Option.ne_none_iff_exists'.1 h1
    obtain ⟨b, eb⟩ := Option.ne_none_iff_exists'.1 h2
    rw [ea, eb, Option.getD_some] at h3
    simp only [step, spec, ea, eb, Option.getD_some, Option.some.injEq]
    refine floor_spec h ec ea eb (h3.imp (fun h e => h (congrArg some e)) id) (fun hb => (ZZ.fdiv_fmod_of_tdiv hb).1) (fun ha hb => ZZ.fdiv_inI64 ha hb) ?_
    rintro rfl rfl
    obtain ⟨s, o', p, k1, k2, k3, k4, k5⟩ := ensure_spec h ec
    obtain ⟨t, l1, l2, l3, -⟩ := write_spec (-i64min) k2 (.inr rfl) k4 k5
    rw [if_neg (by decide)] at l2
    exact ⟨t, by rw [k1]; exact l1, l2, by rw [l3, k3]; rfl⟩
  case fdivR i j k =>
    obtain ⟨h0, h1, h2, h3, h4⟩ := ha
    obtain ⟨c, ec⟩ := Option.ne_none_iff_exists'.1 h0
    obtain ⟨a, ea⟩ := Option.ne_none_iff_exists'.1 h1
    obtain ⟨b, eb⟩ := Option.ne_none_iff_exists'.1 h2
    rw [ea, eb, Option.getD_some] at h3
    rw [ea, eb] at h4
    simp only [step, spec, ea, eb, Option.getD_some, Option.some.injEq]
    refine floor_spec h ec ea eb (h3.imp (fun h e => h (congrArg some e)) id) (fun hb => (ZZ.fdiv_fmod_of_tdiv hb).2) (fun ha hb h0 _ => ZZ.fmod_inI64 ha hb h0) ?_
    rintro rfl rfl
    exact absurd rfl (h4.resolve_left fun h => h rfl)

/-- the calls of a correct program, all along a history -/
def AllowedRun (m : ℕ → Option ℤ) : List Op → Prop
  | [] => True
  | op :: ops => Allowed m op ∧ AllowedRun (spec m op) ops

instance (m : ℕ → Option ℤ) (op : Op) : Decidable (Allowed m op) := by cases op <;> unfold Allowed <;> (try unfold InI64) <;> infer_instance

instance AllowedRun.dec : (m : ℕ → Option ℤ) → (ops : List Op) → Decidable (AllowedRun m ops)
  | _, [] => isTrue trivial
  | m, op :: ops => @instDecidableAnd _ _ _ (AllowedRun.dec (spec m op) ops)

/-- what a history means for the integers -/
def specRun (m : ℕ → Option ℤ) : List Op → (ℕ → Option ℤ)
  | [] => m
  | op :: ops => specRun (spec m op) ops

theorem run_spec (ops : List Op) : ∀ {st : St}, Inv st none → AllowedRun (look st) ops → ∃ s, run st ops = some s ∧ Inv s none ∧ look s = specRun (look st) ops := by
  induction ops with
  | nil => intro st h _; exact ⟨st, rfl, h, rfl⟩
  | cons op ops ih =>
    intro st h ha
    obtain ⟨s, h1, h2, h3⟩ := step_spec h ha.1
    obtain ⟨t, k1, k2, k3⟩ := ih h2 (by rw [h3]; exact ha.2)
    exact ⟨t, by rw [run, h1]; exact k1, k2, by rw [k3, h3]; rfl⟩

/-- the memory at the start: no object, nothing allocated -/
def start : St := ⟨fun _ => none, 0, fun _ => none⟩

theorem start_inv : Inv start none := ⟨by simp [start], by simp [start], by simp [start], by simp [start], by simp [start]⟩

end ZZMem
end CLPoly
