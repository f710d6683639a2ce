import Verif.Num.ZZLemmas

/-!
# Properties C01–C05: `ZZ`

`ZZ.Exact o v` (Verif/Num/ZZLemmas.lean) says: the operation returned normally, the returned object
is in canonical representation, and it denotes the integer `v`.
-/

namespace CLPoly
open ZZ

/-! ## C01 ring operations

The full property is "every operation is exact on every pair of operands".  It is false as stated:
some branches of `+`, `-`, `+=`, `-=` evaluate `-x` on `int64_t` for an operand equal to `INT64_MIN`,
which C++ leaves undefined.  The theorems give the exact set of operand pairs for which this happens
and prove exactness everywhere else. -/

/-- Operand pairs for which `operator+` evaluates `-INT64_MIN`. -/
def AddUB (a b : ZZ) : Prop :=
  (b = small i64min ∧ ((∃ v, a = big v) ∨ ¬ InI64 (a.val + b.val))) ∨
  (a = small i64min ∧ ∃ v, b = big v)

/-- Operand pairs for which `operator-` (and `-=`) evaluates `-INT64_MIN`. -/
def SubUB (a b : ZZ) : Prop :=
  b = small i64min ∧ ((∃ v, a = big v) ∨ ¬ InI64 (a.val - b.val))

/-- Operand pairs for which `operator+=` evaluates `-INT64_MIN`. -/
def AddAssignUB (a b : ZZ) : Prop :=
  b = small i64min ∧ ((∃ v, a = big v) ∨ ¬ InI64 (a.val + b.val))

theorem C01_ZZ_add_partial (a b : ZZ) (ha : a.Canon) (hb : b.Canon) :
    (ZZ.add a b = .ub ↔ AddUB a b) ∧ (¬ AddUB a b → Exact (ZZ.add a b) (a.val + b.val)) := by
  cases a with
  | small x =>
    cases b with
    | small y =>
      simp only [ZZ.add, AddUB, ZZ.val, neg64]
      by_cases h1 : InI64 (x + y)
      · simp only [h1, if_true]
        exact ⟨by simp, fun _ => exact_small h1 rfl⟩
      · by_cases h2 : y ≥ 0
        · simp only [h1, h2, if_true, if_false]
          refine ⟨?_, fun _ => exact_demote rfl⟩
          simp only [reduceCtorEq, ZZ.small.injEq, false_iff]
          unfold i64min; simp; omega
        · by_cases h3 : y = i64min
          · subst h3; simp only [h1, h2, if_false, if_true, Out.bind_ub]; simp [ZZ.val, h1]
          · simp only [h1, h2, h3, if_false, Out.bind_ok]
            exact ⟨by simp [h3], fun _ => exact_demote (by ring)⟩
    | big y =>
      simp only [ZZ.add, AddUB, ZZ.val, neg64]
      by_cases h2 : x ≥ 0
      · simp only [h2, if_true]
        refine ⟨?_, fun _ => exact_demote (by ring)⟩
        simp; unfold i64min; omega
      · by_cases h3 : x = i64min
        · simp [h3]; unfold i64min; simp
        · simp only [h2, h3, if_false, Out.bind_ok]
          exact ⟨by simp [h3], fun _ => exact_demote (by ring)⟩
  | big x =>
    cases b with
    | small y =>
      simp only [ZZ.add, AddUB, ZZ.val, neg64]
      by_cases h2 : y ≥ 0
      · simp only [h2, if_true]
        refine ⟨?_, fun _ => exact_demote rfl⟩
        simp; unfold i64min; omega
      · by_cases h3 : y = i64min
        · simp [h3]; unfold i64min; simp
        · simp only [h2, h3, if_false, Out.bind_ok]
          exact ⟨by simp [h3], fun _ => exact_demote (by ring)⟩
    | big y =>
      simp only [ZZ.add, AddUB, ZZ.val]
      exact ⟨by simp, fun _ => exact_demote rfl⟩

theorem C01_ZZ_sub_partial (a b : ZZ) (ha : a.Canon) (hb : b.Canon) :
    (ZZ.sub a b = .ub ↔ SubUB a b) ∧ (¬ SubUB a b → Exact (ZZ.sub a b) (a.val - b.val)) := by
  cases a with
  | small x =>
    cases b with
    | small y =>
      simp only [ZZ.sub, SubUB, ZZ.val, neg64]
      by_cases h1 : InI64 (x - y)
      · simp only [h1, if_true]
        exact ⟨by simp, fun _ => exact_small h1 rfl⟩
      · by_cases h2 : y ≥ 0
        · simp only [h1, h2, if_true, if_false]
          refine ⟨?_, fun _ => exact_demote rfl⟩
          simp only [reduceCtorEq, ZZ.small.injEq, false_iff]
          unfold i64min; simp; omega
        · by_cases h3 : y = i64min
          · subst h3; simp only [h1, h2, if_false, if_true, Out.bind_ub]; simp [ZZ.val, h1]
          · simp only [h1, h2, h3, if_false, Out.bind_ok]
            exact ⟨by simp [h3], fun _ => exact_demote (by ring)⟩
    | big y =>
      simp only [ZZ.sub, SubUB, ZZ.val]
      exact ⟨by simp, fun _ => exact_demote (by ring)⟩
  | big x =>
    cases b with
    | small y =>
      simp only [ZZ.sub, SubUB, ZZ.val, neg64]
      by_cases h2 : y ≥ 0
      · simp only [h2, if_true]
        refine ⟨?_, fun _ => exact_demote rfl⟩
        simp; unfold i64min; omega
      · by_cases h3 : y = i64min
        · simp [h3]; unfold i64min; simp
        · simp only [h2, h3, if_false, Out.bind_ok]
          exact ⟨by simp [h3], fun _ => exact_demote (by ring)⟩
    | big y =>
      simp only [ZZ.sub, SubUB, ZZ.val]
      exact ⟨by simp, fun _ => exact_demote rfl⟩

theorem C01_ZZ_addAssign_partial (a b : ZZ) (ha : a.Canon) (hb : b.Canon) :
    (ZZ.addAssign a b = .ub ↔ AddAssignUB a b) ∧
    (¬ AddAssignUB a b → Exact (ZZ.addAssign a b) (a.val + b.val)) := by
  cases b with
  | small y =>
    cases a with
    | small x =>
      simp only [ZZ.addAssign, AddAssignUB, ZZ.val, neg64]
      by_cases h1 : InI64 (x + y)
      · simp only [h1, if_true]
        exact ⟨by simp, fun _ => exact_small h1 rfl⟩
      · by_cases h2 : y ≥ 0
        · simp only [h1, h2, if_true, if_false]
          refine ⟨?_, fun _ => exact_demote rfl⟩
          simp only [reduceCtorEq, ZZ.small.injEq, false_iff]
          unfold i64min; simp; omega
        · by_cases h3 : y = i64min
          · subst h3; simp only [h1, h2, if_false, if_true, Out.bind_ub]; simp [ZZ.val, h1]
          · simp only [h1, h2, h3, if_false, Out.bind_ok]
            exact ⟨by simp [h3], fun _ => exact_demote (by ring)⟩
    | big x =>
      simp only [ZZ.addAssign, AddAssignUB, ZZ.val, neg64]
      by_cases h2 : y ≥ 0
      · simp only [h2, if_true]
        refine ⟨?_, fun _ => exact_demote rfl⟩
        simp; unfold i64min; omega
      · by_cases h3 : y = i64min
        · simp [h3]; unfold i64min; simp
        · simp only [h2, h3, if_false, Out.bind_ok]
          exact ⟨by simp [h3], fun _ => exact_demote (by ring)⟩
  | big y =>
    simp only [ZZ.addAssign, AddAssignUB]
    exact ⟨by simp, fun _ => exact_demote rfl⟩

theorem C01_ZZ_subAssign_partial (a b : ZZ) (ha : a.Canon) (hb : b.Canon) :
    (ZZ.subAssign a b = .ub ↔ SubUB a b) ∧
    (¬ SubUB a b → Exact (ZZ.subAssign a b) (a.val - b.val)) := by
  cases b with
  | small y =>
    cases a with
    | small x =>
      simp only [ZZ.subAssign, SubUB, ZZ.val, neg64]
      by_cases h1 : InI64 (x - y)
      · simp only [h1, if_true]
        exact ⟨by simp, fun _ => exact_small h1 rfl⟩
      · by_cases h2 : y ≥ 0
        · simp only [h1, h2, if_true, if_false]
          refine ⟨?_, fun _ => exact_demote rfl⟩
          simp only [reduceCtorEq, ZZ.small.injEq, false_iff]
          unfold i64min; simp; omega
        · by_cases h3 : y = i64min
          · subst h3; simp only [h1, h2, if_false, if_true, Out.bind_ub]; simp [ZZ.val, h1]
          · simp only [h1, h2, h3, if_false, Out.bind_ok]
            exact ⟨by simp [h3], fun _ => exact_demote (by ring)⟩
    | big x =>
      simp only [ZZ.subAssign, SubUB, ZZ.val, neg64]
      by_cases h2 : y ≥ 0
      · simp only [h2, if_true]
        refine ⟨?_, fun _ => exact_demote rfl⟩
        simp; unfold i64min; omega
      · by_cases h3 : y = i64min
        · simp [h3]; unfold i64min; simp
        · simp only [h2, h3, if_false, Out.bind_ok]
          exact ⟨by simp [h3], fun _ => exact_demote (by ring)⟩
  | big y =>
    simp only [ZZ.subAssign, SubUB]
    exact ⟨by simp, fun _ => exact_demote rfl⟩

theorem C01_ZZ_mul (a b : ZZ) (_ha : a.Canon) (_hb : b.Canon) :
    Exact (.ok (ZZ.mul a b)) (a.val * b.val) := by
  cases a <;> cases b <;> simp only [ZZ.mul, ZZ.val]
  · split
    · exact exact_small ‹_› rfl
    · exact exact_demote rfl
  all_goals exact exact_demote (by ring)

theorem C01_ZZ_mulAssign (a b : ZZ) (_ha : a.Canon) (_hb : b.Canon) :
    Exact (.ok (ZZ.mulAssign a b)) (a.val * b.val) := by
  cases a <;> cases b <;> simp only [ZZ.mulAssign, ZZ.val]
  · split
    · exact exact_small ‹_› rfl
    · exact exact_demote rfl
  all_goals exact exact_demote (by ring)

theorem C01_ZZ_neg (a : ZZ) (ha : a.Canon) : Exact (.ok (ZZ.neg a)) (-a.val) := by
  cases a with
  | small x =>
    simp only [ZZ.neg, ZZ.val]
    simp only [Canon, InI64] at ha
    split
    · exact ⟨_, rfl, by subst_vars; decide, rfl⟩
    · refine exact_small ?_ rfl
      unfold InI64 i64min i64max at *; omega
  | big x => exact exact_demote rfl

/-- The unrestricted C01 is false: `INT64_MIN + INT64_MIN` reaches undefined behaviour, and so does
adding `INT64_MIN` to an integer that needs GMP. -/
theorem C01_ZZ_add_undefined_at_min :
    ¬ ∀ a b : ZZ, a.Canon → b.Canon → Exact (ZZ.add a b) (a.val + b.val) := by
  intro h
  obtain ⟨r, hr, -⟩ := h (small i64min) (small i64min) (by decide) (by decide)
  have : ZZ.add (small i64min) (small i64min) = .ub := by decide
  rw [this] at hr; cases hr

-- the hypotheses of the theorems above are met by mixed operands that overflow
example : (small i64max).Canon ∧ (big (2 ^ 70)).Canon ∧ ¬ AddUB (small i64max) (big (2 ^ 70)) ∧
    ZZ.add (small i64max) (small 1) = .ok (big 9223372036854775808) ∧
    ZZ.add (big 9223372036854775808) (small (-1)) = .ok (small i64max) := by
  refine ⟨by decide, by decide, ?_, by decide, by decide⟩
  rintro (⟨h, -⟩ | ⟨h, -⟩) <;> revert h <;> decide

/-! ## C02 canonical representation -/

/-- Operations of a history; operands are indices into the list of values produced so far
(so the same object may be used repeatedly and as both operands). -/
inductive ZOp where
  | lit (v : Int) (h : InI64 v) | litU (v : Nat) (h : v < 2 ^ 64) | parse (v : Int)
  | neg (i : Nat) | add (i j : Nat) | sub (i j : Nat) | mul (i j : Nat)
  | div (i j : Nat) | mod (i j : Nat) | fdivQ (i j : Nat) | fdivR (i j : Nat)
  | addA (i j : Nat) | subA (i j : Nat) | mulA (i j : Nat)
  | shr (i : Nat) (n : Nat) | shl (i : Nat) (n : Nat)
  | addmul (i j k : Nat) | submul (i j k : Nat)
  | pow (i : Nat) (n : Nat) | gcd (i j : Nat) | lcm (i j : Nat) | abs (i : Nat)

/-- One step of the program: the value an operation produces (a dangling index reads as 0). -/
def ZOp.run (vs : List ZZ) : ZOp → Out ZZ
  | .lit v _ => .ok (ofI64 v)
  | .litU v _ => .ok (ofU64 v)
  | .parse v => .ok (ofMpz v)
  | .neg i => .ok (ZZ.neg (vs.getD i (small 0)))
  | .add i j => ZZ.add (vs.getD i (small 0)) (vs.getD j (small 0))
  | .sub i j => ZZ.sub (vs.getD i (small 0)) (vs.getD j (small 0))
  | .mul i j => .ok (ZZ.mul (vs.getD i (small 0)) (vs.getD j (small 0)))
  | .div i j => ZZ.div (vs.getD i (small 0)) (vs.getD j (small 0))
  | .mod i j => ZZ.mod (vs.getD i (small 0)) (vs.getD j (small 0))
  | .fdivQ i j => ZZ.fdivQ (vs.getD i (small 0)) (vs.getD j (small 0))
  | .fdivR i j => ZZ.fdivR (vs.getD i (small 0)) (vs.getD j (small 0))
  | .addA i j => ZZ.addAssign (vs.getD i (small 0)) (vs.getD j (small 0))
  | .subA i j => ZZ.subAssign (vs.getD i (small 0)) (vs.getD j (small 0))
  | .mulA i j => .ok (ZZ.mulAssign (vs.getD i (small 0)) (vs.getD j (small 0)))
  | .shr i n => .ok (ZZ.shr (vs.getD i (small 0)) n)
  | .shl i n => .ok (ZZ.shl (vs.getD i (small 0)) n)
  | .addmul i j k => .ok (ZZ.addmul (vs.getD i (small 0)) (vs.getD j (small 0)) (vs.getD k (small 0)))
  | .submul i j k => .ok (ZZ.submul (vs.getD i (small 0)) (vs.getD j (small 0)) (vs.getD k (small 0)))
  | .pow i n => .ok (ZZ.pow (vs.getD i (small 0)) n)
  | .gcd i j => ZZ.gcd (vs.getD i (small 0)) (vs.getD j (small 0))
  | .lcm i j => ZZ.lcm (vs.getD i (small 0)) (vs.getD j (small 0))
  | .abs i => .ok (ZZ.abs (vs.getD i (small 0)))

/-- The integer the operation should produce from the integers produced so far. -/
def ZOp.spec (vs : List Int) : ZOp → Int
  | .lit v _ => v
  | .litU v _ => v
  | .parse v => v
  | .neg i => -(vs.getD i 0)
  | .add i j | .addA i j => vs.getD i 0 + vs.getD j 0
  | .sub i j | .subA i j => vs.getD i 0 - vs.getD j 0
  | .mul i j | .mulA i j => vs.getD i 0 * vs.getD j 0
  | .div i j => (vs.getD i 0).tdiv (vs.getD j 0)
  | .mod i j => (vs.getD i 0).tmod (vs.getD j 0)
  | .fdivQ i j => (vs.getD i 0).fdiv (vs.getD j 0)
  | .fdivR i j => (vs.getD i 0).fmod (vs.getD j 0)
  | .shr i n => (vs.getD i 0) / 2 ^ n
  | .shl i n => (vs.getD i 0) * 2 ^ n
  | .addmul i j k => vs.getD i 0 + vs.getD j 0 * vs.getD k 0
  | .submul i j k => vs.getD i 0 - vs.getD j 0 * vs.getD k 0
  | .pow i n => (vs.getD i 0) ^ n
  | .gcd i j => Int.gcd (vs.getD i 0) (vs.getD j 0)
  | .lcm i j => Int.lcm (vs.getD i 0) (vs.getD j 0)
  | .abs i => |vs.getD i 0|

/-- A program: run the operations in order, newest value last; stops at the first abnormal outcome. -/
def runProg : List ZOp → List ZZ → Out (List ZZ)
  | [], vs => .ok vs
  | op :: ops, vs => do let r ← op.run vs; runProg ops (vs ++ [r])

/-- The same program on mathematical integers. -/
def specProg : List ZOp → List Int → List Int
  | [], vs => vs
  | op :: ops, vs => specProg ops (vs ++ [op.spec vs])

/-! ## C03 division -/

theorem C03_ZZ_div (a b : ZZ) (ha : a.Canon) (hb : b.Canon) (h0 : b.val ≠ 0) :
    Exact (ZZ.div a b) (a.val.tdiv b.val) := by
  cases a <;> cases b <;> simp only [ZZ.div, ZZ.val, Canon] at * <;> simp only [h0, if_false]
  · split
    · rename_i h; obtain ⟨rfl, rfl⟩ := h; exact ⟨_, rfl, by decide, by decide⟩
    · rename_i h; exact exact_small (tdiv_inI64 ha hb h0 h) rfl
  all_goals exact exact_demote rfl

theorem C03_ZZ_mod (a b : ZZ) (ha : a.Canon) (hb : b.Canon) (h0 : b.val ≠ 0) :
    Exact (ZZ.mod a b) (a.val.tmod b.val) := by
  cases a <;> cases b <;> simp only [ZZ.mod, ZZ.val, Canon] at * <;> simp only [h0, if_false]
  · split
    · rename_i h; obtain ⟨rfl, rfl⟩ := h; exact ⟨_, rfl, by decide, by decide⟩
    · exact exact_small (tmod_inI64 ha hb) rfl
  all_goals exact exact_demote rfl

theorem C03_ZZ_fdivQ (a b : ZZ) (ha : a.Canon) (hb : b.Canon) (h0 : b.val ≠ 0) :
    Exact (ZZ.fdivQ a b) (a.val.fdiv b.val) := by
  cases a <;> cases b <;> simp only [ZZ.fdivQ, ZZ.val, Canon] at * <;> simp only [h0, if_false]
  · split
    · rename_i h; obtain ⟨rfl, rfl⟩ := h; exact ⟨_, rfl, by decide, by decide⟩
    · rename_i h; rw [(fdiv_fmod_of_tdiv h0).1]; exact exact_small (fdiv_inI64 ha hb h0 h) rfl
  all_goals exact exact_demote rfl

theorem C03_ZZ_fdivQR (a b : ZZ) (ha : a.Canon) (hb : b.Canon) (h0 : b.val ≠ 0) :
    ∃ q r, ZZ.fdivQR a b = .ok (q, r) ∧ q.Canon ∧ r.Canon ∧
      q.val = a.val.fdiv b.val ∧ r.val = a.val.fmod b.val ∧
      a.val = q.val * b.val + r.val ∧
      (0 < b.val → 0 ≤ r.val ∧ r.val < b.val) ∧ (b.val < 0 → b.val < r.val ∧ r.val ≤ 0) := by
  have hrng : (0 < b.val → 0 ≤ a.val.fmod b.val ∧ a.val.fmod b.val < b.val) ∧
      (b.val < 0 → b.val < a.val.fmod b.val ∧ a.val.fmod b.val ≤ 0) := by
    constructor
    · intro hy; exact ⟨Int.fmod_nonneg_of_pos _ hy, Int.fmod_lt_of_pos _ hy⟩
    · intro hy
      have h3 : a.val.fmod b.val = -((-a.val).fmod (-b.val)) := by rw [Int.neg_fmod_neg]; simp
      have h4 := Int.fmod_nonneg_of_pos (-a.val) (b := -b.val) (by omega)
      have h5 := Int.fmod_lt_of_pos (-a.val) (b := -b.val) (by omega)
      constructor <;> omega
  have hid : a.val = a.val.fdiv b.val * b.val + a.val.fmod b.val := by
    rw [mul_comm]; exact (Int.mul_fdiv_add_fmod _ _).symm
  suffices h : ∃ q r, ZZ.fdivQR a b = .ok (q, r) ∧ q.Canon ∧ r.Canon ∧
      q.val = a.val.fdiv b.val ∧ r.val = a.val.fmod b.val by
    obtain ⟨q, r, h1, h2, h3, h4, h5⟩ := h
    refine ⟨q, r, h1, h2, h3, h4, h5, ?_, ?_, ?_⟩
    · rw [h4, h5]; exact hid
    · rw [h5]; exact hrng.1
    · rw [h5]; exact hrng.2
  clear hrng hid
  cases a <;> cases b <;> simp only [ZZ.fdivQR, ZZ.val, Canon] at * <;> simp only [h0, if_false]
  · rename_i x y
    split
    · rename_i h; obtain ⟨rfl, rfl⟩ := h
      exact ⟨_, _, rfl, by decide, by decide, by decide, by decide⟩
    · rename_i h
      have h1 := fdiv_fmod_of_tdiv (x := x) h0
      split at h1
      · rename_i hc; rw [if_pos hc, h1.1, h1.2]
        exact ⟨_, _, rfl, fdiv_inI64 ha hb h0 h, fmod_inI64 ha hb h0, rfl, rfl⟩
      · rename_i hc; rw [if_neg hc, h1.1, h1.2]
        exact ⟨_, _, rfl, fdiv_inI64 ha hb h0 h, fmod_inI64 ha hb h0, rfl, rfl⟩
  all_goals
    exact ⟨_, _, rfl, demote_canon _, demote_canon _, demote_val _, demote_val _⟩

/-- `fdiv_r` is exact except for the single operand pair `INT64_MIN, -1`, where it evaluates
`INT64_MIN % -1` (undefined in C++, SIGFPE on x86). -/
theorem C03_ZZ_fdivR_partial (a b : ZZ) (ha : a.Canon) (hb : b.Canon) (h0 : b.val ≠ 0) :
    (ZZ.fdivR a b = .ub ↔ a.val = i64min ∧ b.val = -1) ∧
    (¬ (a.val = i64min ∧ b.val = -1) → Exact (ZZ.fdivR a b) (a.val.fmod b.val)) := by
  cases a <;> cases b <;> simp only [ZZ.fdivR, ZZ.val, Canon] at * <;> simp only [h0, if_false]
  · rename_i x y
    split
    · rename_i h; exact ⟨by simp [h], fun hn => absurd h hn⟩
    · rename_i h
      refine ⟨by simp [h], fun _ => ?_⟩
      rw [(fdiv_fmod_of_tdiv h0).2]; exact exact_small (fmod_inI64 ha hb h0) rfl
  · refine ⟨?_, fun _ => exact_demote rfl⟩
    rename_i x y
    simp only [reduceCtorEq, false_iff]
    rintro ⟨-, rfl⟩; exact hb (by decide)
  · refine ⟨?_, fun _ => exact_demote rfl⟩
    rename_i x y
    simp only [reduceCtorEq, false_iff]
    rintro ⟨rfl, -⟩; exact ha (by decide)
  · refine ⟨?_, fun _ => exact_demote rfl⟩
    rename_i x y
    simp only [reduceCtorEq, false_iff]
    rintro ⟨rfl, -⟩; exact ha (by decide)

theorem C03_ZZ_fdivR_undefined : ZZ.fdivR (small i64min) (small (-1)) = .ub := by decide

/-- Division by zero: with an inline dividend it throws `std::domain_error`; with a GMP dividend the
zero divisor reaches GMP, which stops the process instead of throwing. -/
theorem C03_ZZ_div_zero (a b : ZZ) (hb : b.Canon) (h0 : b.val = 0) :
    (∀ x, a = small x → ZZ.div a b = .throws ∧ ZZ.mod a b = .throws ∧
        ZZ.fdivQ a b = .throws ∧ ZZ.fdivR a b = .throws ∧ ZZ.fdivQR a b = .throws) ∧
    (∀ x, a = big x → ZZ.div a b = .trap ∧ ZZ.mod a b = .trap ∧
        ZZ.fdivQ a b = .trap ∧ ZZ.fdivR a b = .trap ∧ ZZ.fdivQR a b = .trap) := by
  cases b with
  | small y =>
    simp only [ZZ.val] at h0; subst h0
    exact ⟨by rintro x rfl; simp [ZZ.div, ZZ.mod, ZZ.fdivQ, ZZ.fdivR, ZZ.fdivQR],
      by rintro x rfl; simp [ZZ.div, ZZ.mod, ZZ.fdivQ, ZZ.fdivR, ZZ.fdivQR]⟩
  | big y =>
    simp only [ZZ.val] at h0; subst h0
    exact absurd (by decide : InI64 0) hb

/-- `fdiv_ui(d)` is the residue in `[0,d)`, except that an inline `INT64_MIN` is negated first. -/
theorem C03_ZZ_fdivUi_partial (a : ZZ) (d : Nat) (hd : 0 < d) :
    (ZZ.fdivUi a d = .ub ↔ a = small i64min) ∧
    (a ≠ small i64min → ∃ r, ZZ.fdivUi a d = .ok r ∧ r < d ∧ (r : Int) = a.val % d) := by
  have hd0 : d ≠ 0 := by omega
  have hdz : (0 : Int) < d := by exact_mod_cast hd
  cases a with
  | small x =>
    simp only [ZZ.fdivUi, hd0, if_false, neg64, ZZ.val]
    by_cases hx : x ≥ 0
    · simp only [hx, if_true]
      refine ⟨by simp; unfold i64min; omega, fun _ => ⟨_, rfl, Nat.mod_lt _ hd, ?_⟩⟩
      push_cast; rw [Int.toNat_of_nonneg hx]
    · by_cases hm : x = i64min
      · simp [hm]; unfold i64min; simp
      · simp only [hx, hm, if_false, Out.bind_ok]
        refine ⟨by simp [hm], fun _ => ⟨_, rfl, ?_, ?_⟩⟩
        · split
          · exact hd
          · omega
        · have hn : ((-x).toNat : Int) = -x := Int.toNat_of_nonneg (by omega)
          have hmod : (((-x).toNat % d : Nat) : Int) = (-x) % d := by push_cast; rw [hn]
          have hlt : (-x).toNat % d < d := Nat.mod_lt _ hd
          split
          · rename_i hz
            rw [hz] at hmod
            have : (d : Int) ∣ x := by
              have := Int.dvd_of_emod_eq_zero hmod.symm
              exact (dvd_neg).1 this
            rw [Int.emod_eq_zero_of_dvd this]; rfl
          · rename_i hz
            rw [Nat.cast_sub (le_of_lt hlt), hmod]
            have h1 : (x % d + (-x) % d) % d = 0 := by
              rw [← Int.add_emod]; simp
            have h2 := Int.emod_nonneg x (ne_of_gt hdz)
            have h3 := Int.emod_lt_of_pos x hdz
            have h4 : (-x) % d ≠ 0 := by rw [← hmod]; exact_mod_cast hz
            have h5 := Int.emod_nonneg (-x) (ne_of_gt hdz)
            have h6 := Int.emod_lt_of_pos (-x) hdz
            have h7 := Int.dvd_of_emod_eq_zero h1
            obtain ⟨c, hc⟩ := h7
            have : c = 1 := by
              have c1 : 0 < c := by
                by_contra hcc
                have : (d : Int) * c ≤ 0 := by nlinarith
                omega
              have c2 : c < 2 := by
                by_contra hcc
                have : (d : Int) * 2 ≤ d * c := by nlinarith
                omega
              omega
            subst this; omega
  | big x =>
    simp only [ZZ.fdivUi, hd0, if_false, ZZ.val]
    have h1 := Int.fmod_nonneg_of_pos x hdz
    have h2 := Int.fmod_lt_of_pos x hdz
    refine ⟨by simp, fun _ => ⟨_, rfl, by omega, ?_⟩⟩
    rw [Int.toNat_of_nonneg h1, Int.fmod_eq_emod_of_nonneg _ (le_of_lt hdz)]

example : (small (-7)).Canon ∧ (small 2).Canon ∧ (small 2).val ≠ 0 ∧
    ZZ.div (small (-7)) (small 2) = .ok (small (-3)) ∧
    ZZ.fdivQ (small (-7)) (small 2) = .ok (small (-4)) ∧
    ZZ.fdivR (small (-7)) (small 2) = .ok (small 1) ∧
    ZZ.div (small i64min) (small (-1)) = .ok (big 9223372036854775808) := by decide

/-! ## C04 gcd, lcm, abs, pow -/

theorem C04_ZZ_gcd_partial (a b : ZZ) (ha : a.Canon) (hb : b.Canon) :
    (ZZ.gcd a b = .ub ↔
      (a = small i64min ∧ ∃ y, b = small y) ∨ (b = small i64min ∧ ∃ x, a = small x)) ∧
    (ZZ.gcd a b ≠ .ub → Exact (ZZ.gcd a b) (Int.gcd a.val b.val)) := by
  cases a with
  | small x =>
    cases b with
    | small y =>
      simp only [ZZ.gcd, ZZ.val]
      by_cases hx : x = i64min
      · rw [abs64_ub hx]; simp [hx]
      · by_cases hy : y = i64min
        · rw [abs64_ok hx, abs64_ub hy]; simp [hy]
        · rw [abs64_ok hx, abs64_ok hy]
          simp only [hx, hy, if_false, Out.bind_ok, or_self]
          refine ⟨by simp [hx, hy], fun _ => ?_⟩
          rw [gcdLoop_eq]
          simp only [Int.toNat_natCast]
          refine exact_small ?_ rfl
          simp only [Canon] at ha hb
          unfold InI64 i64min i64max at *
          by_cases hy0 : y = 0
          · subst hy0
            simp only [Int.natAbs_zero, Nat.gcd_zero_right]; omega
          · have : Nat.gcd x.natAbs y.natAbs ≤ y.natAbs := Nat.gcd_le_right _ (by omega)
            omega
    | big y => exact ⟨by simp [ZZ.gcd], fun _ => exact_demote rfl⟩
  | big x =>
    cases b with
    | small y => exact ⟨by simp [ZZ.gcd], fun _ => exact_demote rfl⟩
    | big y => exact ⟨by simp [ZZ.gcd], fun _ => exact_demote rfl⟩

/-- The unrestricted claim is false: `gcd(INT64_MIN, 0)` negates `INT64_MIN`. -/
theorem C04_ZZ_gcd_undefined : ZZ.gcd (small i64min) (small 6) = .ub := by decide

theorem C04_ZZ_lcm (a b : ZZ) (ha : a.Canon) (hb : b.Canon) :
    Exact (ZZ.lcm a b) (Int.lcm a.val b.val) := by
  unfold ZZ.lcm
  by_cases hz : a.val = 0 ∨ b.val = 0
  · simp only [hz, if_true]
    refine exact_small (by decide) ?_
    rcases hz with h | h <;> simp [h]
  · simp only [hz, if_false]
    cases a with
    | small x =>
      cases b with
      | small y =>
        simp only [val_small] at hz ⊢
        by_cases hm : x ≠ i64min ∧ y ≠ i64min
        · rw [if_pos hm]
          have hg := (C04_ZZ_gcd_partial (small x) (small y) ha hb)
          have hne : ZZ.gcd (small x) (small y) ≠ .ub := by
            rw [Ne, hg.1]; simp [hm.1, hm.2]
          obtain ⟨g, hg1, hg2, hg3⟩ := hg.2 hne
          have hg3' : g.val = ((Int.gcd x y : Nat) : Int) := hg3
          rw [hg1, abs64_ok hm.1, abs64_ok hm.2]
          simp only [Out.bind_ok, hg3']
          have key : ((x.natAbs : Int).tdiv (Int.gcd x y : Nat)) * y.natAbs = (Int.lcm x y : Nat) := by
            have h1 : ((x.natAbs : Int).tdiv (Int.gcd x y : Nat)) = ((x.natAbs / Int.gcd x y : Nat) : Int) := by
              rw [Int.ofNat_tdiv]
            rw [h1, ← Nat.cast_mul]
            congr 1
            show x.natAbs / Nat.gcd x.natAbs y.natAbs * y.natAbs = Nat.lcm x.natAbs y.natAbs
            unfold Nat.lcm
            rw [Nat.div_mul_right_comm (Nat.gcd_dvd_left _ _)]
          rw [key]
          split
          · rename_i h
            refine exact_small ?_ rfl
            unfold InI64 i64min i64max at *; omega
          · exact exact_demote rfl
        · rw [if_neg hm]; exact exact_demote rfl
      | big y => exact exact_demote rfl
    | big x =>
      cases b with
      | small y => exact exact_demote rfl
      | big y => exact exact_demote rfl

theorem C04_ZZ_abs (a : ZZ) (ha : a.Canon) : Exact (.ok (ZZ.abs a)) |a.val| := by
  cases a with
  | small x =>
    simp only [ZZ.abs, ZZ.val]
    simp only [Canon, InI64] at ha
    split
    · exact ⟨_, rfl, by subst_vars; decide, by subst_vars; decide⟩
    · refine exact_small ?_ ?_
      · unfold InI64 i64min i64max at *; split <;> omega
      · split
        · rename_i h; rw [abs_of_neg h]
        · rename_i h; rw [abs_of_nonneg (by omega)]
  | big x => exact exact_demote rfl

theorem C04_ZZ_pow (a : ZZ) (n : Nat) (ha : a.Canon) : Exact (.ok (ZZ.pow a n)) (a.val ^ n) := by
  unfold ZZ.pow
  by_cases h0 : n = 0
  · simp only [h0, if_true]; exact exact_small (by decide) (by simp)
  · by_cases h1 : n = 1
    · simp only [h1]; exact ⟨a, rfl, ha, by simp⟩
    · by_cases h2 : a.val = 0
      · simp only [h0, h1, h2, if_true, if_false]
        exact exact_small (by decide) (by rw [zero_pow h0])
      · by_cases h3 : a.val = 1
        · simp only [h0, h1, h3, if_false, if_true]
          exact exact_small (by decide) (by simp)
        · simp only [h0, h1, h2, h3, if_false]; exact exact_demote rfl

example : (small (-12)).Canon ∧ ZZ.gcd (small (-12)) (small 18) = .ok (small 6) ∧
    ZZ.lcm (small (-12)) (small 18) = .ok (small 36) ∧ ZZ.pow (small (-3)) 41 = big (-36472996377170786403) := by
  refine ⟨by decide, by decide +kernel, by decide +kernel, by decide⟩

/-! ## C05 fused and shift operations -/

theorem C05_ZZ_addmul (s a b : ZZ) :
    Exact (.ok (ZZ.addmul s a b)) (s.val + a.val * b.val) := by
  cases s <;> cases a <;> cases b <;> simp only [ZZ.addmul, ZZ.val]
  · split
    · exact exact_small ‹_› rfl
    · exact exact_demote rfl
  all_goals exact exact_demote rfl

theorem C05_ZZ_submul (s a b : ZZ) :
    Exact (.ok (ZZ.submul s a b)) (s.val - a.val * b.val) := by
  cases s <;> cases a <;> cases b <;> simp only [ZZ.submul, ZZ.val]
  · split
    · exact exact_small ‹_› rfl
    · exact exact_demote rfl
  all_goals exact exact_demote rfl

theorem C05_ZZ_shl (a : ZZ) (n : Nat) : Exact (.ok (ZZ.shl a n)) (a.val * 2 ^ n) :=
  exact_demote rfl

theorem C05_ZZ_shr (a : ZZ) (n : Nat) (ha : a.Canon) : Exact (.ok (ZZ.shr a n)) (a.val / 2 ^ n) := by
  cases a with
  | small x =>
    simp only [ZZ.shr, ZZ.val]
    simp only [Canon] at ha
    split
    · rename_i hn
      have hp : (2 : Int) ^ 63 ≤ 2 ^ n := pow_le_pow_right₀ (by norm_num) hn
      have hx : -(2 : Int) ^ 63 ≤ x ∧ x < 2 ^ 63 := by unfold InI64 i64min i64max at ha; omega
      refine exact_small (by split <;> decide) ?_
      have hpos : (0 : Int) < 2 ^ n := by positivity
      split
      · rename_i hneg
        symm
        rw [Int.ediv_eq_iff_of_pos hpos]
        constructor <;> omega
      · rw [Int.ediv_eq_zero_of_lt (by omega) (by omega)]
    · refine exact_small ?_ rfl
      have hpos : (1 : Int) ≤ 2 ^ n := one_le_pow₀ (by norm_num)
      unfold InI64 i64min i64max at *
      constructor
      · rw [Int.le_ediv_iff_mul_le (by omega)]; nlinarith
      · apply Int.le_of_lt_add_one
        rw [Int.ediv_lt_iff_lt_mul (by omega)]; nlinarith
  | big x => exact exact_demote rfl

/-! ## C02 continued: histories -/

theorem C02_run_canon (vs : List ZZ) (hvs : ∀ v ∈ vs, v.Canon) (op : ZOp) (r : ZZ)
    (h : op.run vs = .ok r) : r.Canon ∧ r.val = op.spec (vs.map ZZ.val) := by
  have hget : ∀ i, (vs.getD i (small 0)).Canon := by
    intro i
    rw [List.getD_eq_getElem?_getD]
    cases hi : vs[i]? with
    | none => simp; decide
    | some v => simpa using hvs v (List.mem_of_getElem? hi)
  have hval : ∀ i, (vs.map ZZ.val).getD i 0 = (vs.getD i (small 0)).val := by
    intro i
    simp only [List.getD_eq_getElem?_getD, List.getElem?_map]
    cases vs[i]? <;> rfl
  have fin : ∀ {o : Out ZZ} {v : Int}, Exact o v → o = .ok r → r.Canon ∧ r.val = v := by
    rintro o v ⟨r', rfl, h1, h2⟩ h3; cases h3; exact ⟨h1, h2⟩
  have part : ∀ {o : Out ZZ} {v : Int} {P : Prop}, (o = .ub ↔ P) ∧ (¬ P → Exact o v) → o = .ok r →
      r.Canon ∧ r.val = v := by
    rintro o v P ⟨h1, h2⟩ h3
    refine fin (h2 fun hp => ?_) h3
    rw [h1.2 hp] at h3; cases h3
  have z : ∀ {a b : ZZ}, b.Canon → ∀ {o : Out ZZ}, (o ≠ .throws ∧ o ≠ .trap) →
      (b.val = 0 → o = .throws ∨ o = .trap) → b.val ≠ 0 := by
    rintro a b _ o ⟨h1, h2⟩ h3 h4; rcases h3 h4 with h | h <;> contradiction
  have dz : ∀ (i j : Nat) (f : ZZ → ZZ → Out ZZ), f (vs.getD i (small 0)) (vs.getD j (small 0)) = .ok r →
      (f = ZZ.div ∨ f = ZZ.mod ∨ f = ZZ.fdivQ ∨ f = ZZ.fdivR) → (vs.getD j (small 0)).val ≠ 0 := by
    intro i j f hf hor h0
    have hh := C03_ZZ_div_zero (vs.getD i (small 0)) (vs.getD j (small 0)) (hget j) h0
    cases ha : vs.getD i (small 0) with
    | small x =>
      obtain ⟨h1, h2, h3, h4, -⟩ := hh.1 x ha
      rcases hor with rfl | rfl | rfl | rfl <;> simp_all
    | big x =>
      obtain ⟨h1, h2, h3, h4, -⟩ := hh.2 x ha
      rcases hor with rfl | rfl | rfl | rfl <;> simp_all
  cases op with
  | lit v hv => cases h; exact ⟨hv, rfl⟩
  | litU v hv =>
    cases h
    simp only [ofU64, ZOp.spec]
    split
    · rename_i hh; exact ⟨⟨by unfold i64min; omega, hh⟩, rfl⟩
    · rename_i hh; exact ⟨fun hc => hh hc.2, rfl⟩
  | parse v => cases h; exact ⟨demote_canon v, demote_val v⟩
  | neg i => simp only [ZOp.spec, hval]; exact fin (C01_ZZ_neg _ (hget i)) h
  | add i j => simp only [ZOp.spec, hval]; exact part (C01_ZZ_add_partial _ _ (hget i) (hget j)) h
  | sub i j => simp only [ZOp.spec, hval]; exact part (C01_ZZ_sub_partial _ _ (hget i) (hget j)) h
  | mul i j => simp only [ZOp.spec, hval]; exact fin (C01_ZZ_mul _ _ (hget i) (hget j)) h
  | addA i j => simp only [ZOp.spec, hval]; exact part (C01_ZZ_addAssign_partial _ _ (hget i) (hget j)) h
  | subA i j => simp only [ZOp.spec, hval]; exact part (C01_ZZ_subAssign_partial _ _ (hget i) (hget j)) h
  | mulA i j => simp only [ZOp.spec, hval]; exact fin (C01_ZZ_mulAssign _ _ (hget i) (hget j)) h
  | div i j =>
    simp only [ZOp.spec, hval]
    exact fin (C03_ZZ_div _ _ (hget i) (hget j) (dz i j ZZ.div h (by simp))) h
  | mod i j =>
    simp only [ZOp.spec, hval]
    exact fin (C03_ZZ_mod _ _ (hget i) (hget j) (dz i j ZZ.mod h (by simp))) h
  | fdivQ i j =>
    simp only [ZOp.spec, hval]
    exact fin (C03_ZZ_fdivQ _ _ (hget i) (hget j) (dz i j ZZ.fdivQ h (by simp))) h
  | fdivR i j =>
    simp only [ZOp.spec, hval]
    exact part (C03_ZZ_fdivR_partial _ _ (hget i) (hget j) (dz i j ZZ.fdivR h (by simp))) h
  | shr i n => simp only [ZOp.spec, hval]; exact fin (C05_ZZ_shr _ n (hget i)) h
  | shl i n => simp only [ZOp.spec, hval]; exact fin (C05_ZZ_shl _ n) h
  | addmul i j k => simp only [ZOp.spec, hval]; exact fin (C05_ZZ_addmul _ _ _) h
  | submul i j k => simp only [ZOp.spec, hval]; exact fin (C05_ZZ_submul _ _ _) h
  | pow i n => simp only [ZOp.spec, hval]; exact fin (C04_ZZ_pow _ n (hget i)) h
  | gcd i j =>
    simp only [ZOp.spec, hval]
    refine fin ((C04_ZZ_gcd_partial _ _ (hget i) (hget j)).2 ?_) h
    intro hu; rw [ZOp.run, hu] at h; cases h
  | lcm i j => simp only [ZOp.spec, hval]; exact fin (C04_ZZ_lcm _ _ (hget i) (hget j)) h
  | abs i => simp only [ZOp.spec, hval]; exact fin (C04_ZZ_abs _ (hget i)) h

/-- C02: after any history of operations that runs to completion, every value produced is canonical
and denotes exactly the integer computed by the same history on mathematical integers. -/
theorem C02_history (ops : List ZOp) (vs out : List ZZ) (hvs : ∀ v ∈ vs, v.Canon)
    (h : runProg ops vs = .ok out) :
    (∀ v ∈ out, v.Canon) ∧ out.map ZZ.val = specProg ops (vs.map ZZ.val) := by
  induction ops generalizing vs with
  | nil => cases h; exact ⟨hvs, rfl⟩
  | cons op ops ih =>
    simp only [runProg] at h
    cases hr : op.run vs with
    | ok r =>
      rw [hr, Out.bind_ok] at h
      obtain ⟨h1, h2⟩ := C02_run_canon vs hvs op r hr
      have := ih (vs ++ [r]) (by
        intro v hv; rcases List.mem_append.1 hv with hv | hv
        · exact hvs v hv
        · simp at hv; exact hv ▸ h1) h
      refine ⟨this.1, ?_⟩
      rw [this.2, List.map_append, List.map_cons, List.map_nil, h2]; rfl
    | throws => rw [hr] at h; cases h
    | trap => rw [hr] at h; cases h
    | ub => rw [hr] at h; cases h

/-- C02: on canonical objects `==` is equality of integers, `<` is the integer order, and equal
values have equal hashes whatever the two underlying hash functions are. -/
theorem C02_ZZ_compare (a b : ZZ) (ha : a.Canon) (hb : b.Canon) :
    (ZZ.beq a b = true ↔ a.val = b.val) ∧ (ZZ.blt a b = true ↔ a.val < b.val) ∧
    (∀ hs hb' : Int → Nat, ZZ.beq a b = true → ZZ.hash hs hb' a = ZZ.hash hs hb' b) ∧
    (ZZ.sgn a = a.val.sign) := by
  have heq : ZZ.beq a b = true ↔ a.val = b.val := by
    cases a <;> cases b <;> simp only [ZZ.beq, val_small, val_big, beq_iff_eq]
    exact eq_comm
  refine ⟨heq, ?_, ?_, ?_⟩
  · cases a <;> cases b <;> simp only [ZZ.blt, ZZ.val, decide_eq_true_eq, gt_iff_lt]
  · intro hs hb' h; rw [canon_ext ha hb (heq.1 h)]
  · cases a with
    | small x =>
      simp only [ZZ.sgn, ZZ.val]
      rcases lt_trichotomy x 0 with h | h | h
      · rw [Int.sign_eq_neg_one_of_neg h, if_neg (by omega), if_pos h]
      · subst h; rfl
      · rw [Int.sign_eq_one_of_pos h, if_pos h]
    | big x => rfl

/-- Canonicity is what makes this true: on a non-canonical object equal values can hash differently. -/
example : ∃ hs hb : Int → Nat, ZZ.beq (small 5) (big 5) = true ∧
    ZZ.hash hs hb (small 5) ≠ ZZ.hash hs hb (big 5) :=
  ⟨fun _ => 0, fun _ => 1, by decide, by decide⟩

-- a history that promotes, cancels back and demotes
example : runProg [.lit i64max (by decide), .lit 1 (by decide), .add 0 1, .sub 2 1, .mul 2 2] [] =
    .ok [small i64max, small 1, big 9223372036854775808, small i64max,
      big 85070591730234615865843651857942052864] := by decide

end CLPoly
