import Verif.Poly.Codec
import Mathlib.Data.Nat.Bitwise

/-! # The divisibility test on packed words: `((m - lm) & mold) == 0` -/

namespace CLPoly

/-- little-endian value -/
def le (B : Nat) : List Nat → Nat
  | [] => 0
  | d :: ds => d + B * le B ds

theorem num_eq_le (B : Nat) (ds : List Nat) : num B ds 0 = le B ds.reverse := by
  have key : ∀ xs : List Nat, num B xs.reverse 0 = le B xs := by
    intro xs
    induction xs with
    | nil => rfl
    | cons d ds ih =>
      rw [List.reverse_cons, num_append, ih, num_cons, num_nil, le]; ring
  rw [← key ds.reverse, List.reverse_reverse]

theorem le_lt (B : Nat) (ds : List Nat) (h : ∀ d ∈ ds, d < B) : le B ds < B ^ ds.length := by
  induction ds with
  | nil => simp [le]
  | cons d ds ih =>
    have h1 := ih fun x hx => h x (List.mem_cons_of_mem _ hx)
    have h2 := h d (by simp)
    rw [le, List.length_cons, pow_succ]
    have h3 : B * (le B ds + 1) ≤ B * B ^ ds.length := Nat.mul_le_mul_left _ h1
    rw [mul_add, mul_one] at h3
    rw [mul_comm (B ^ ds.length) B]
    omega

theorem le_inj (B : Nat) : ∀ (a b : List Nat), (∀ d ∈ a, d < B) → (∀ d ∈ b, d < B) → a.length = b.length →
    le B a = le B b → a = b
  | [], [], _, _, _, _ => rfl
  | [], _ :: _, _, _, h, _ => by simp at h
  | _ :: _, [], _, _, h, _ => by simp at h
  | x :: a, y :: b, ha, hb, hl, he => by
    rw [le, le] at he
    have hx := ha x (by simp)
    have hy := hb y (by simp)
    have hB : 0 < B := by omega
    have h1 : x = y := by
      have := congrArg (· % B) he
      simpa [Nat.add_mul_mod_self_left, Nat.mod_eq_of_lt hx, Nat.mod_eq_of_lt hy] using this
    subst h1
    have h2 : le B a = le B b := by
      have : B * le B a = B * le B b := by omega
      exact Nat.eq_of_mul_eq_mul_left hB this
    rw [le_inj B a b (fun d hd => ha d (List.mem_cons_of_mem _ hd)) (fun d hd => hb d (List.mem_cons_of_mem _ hd))
      (by simpa using hl) h2]

/-- the lowest `n` fields of `l` bits have their top bit clear -/
def topClear (l : Nat) : Nat → Nat → Prop
  | 0, _ => True
  | n + 1, D => D % 2 ^ l < 2 ^ (l - 1) ∧ topClear l n (D / 2 ^ l)

/-- little-endian construction of the mold -/
def moldN (l : Nat) : Nat → Nat
  | 0 => 0
  | n + 1 => 2 ^ (l - 1) + 2 ^ l * moldN l n

theorem and_split (l x y : Nat) : x &&& y = 0 ↔ x % 2 ^ l &&& y % 2 ^ l = 0 ∧ x / 2 ^ l &&& y / 2 ^ l = 0 := by
  constructor
  · intro h
    constructor
    · rw [← Nat.and_mod_two_pow, h, Nat.zero_mod]
    · rw [← Nat.and_div_two_pow, h, Nat.zero_div]
  · rintro ⟨h1, h2⟩
    rw [← Nat.and_mod_two_pow] at h1
    rw [← Nat.and_div_two_pow] at h2
    rw [← Nat.div_add_mod (x &&& y) (2 ^ l), h1, h2]; simp

theorem and_top {l x : Nat} (hl : 0 < l) (hx : x < 2 ^ l) : x &&& 2 ^ (l - 1) = 0 ↔ x < 2 ^ (l - 1) := by
  rw [Nat.and_two_pow]
  have h2 : 2 ^ l = 2 * 2 ^ (l - 1) := by rw [← pow_succ', Nat.sub_add_cancel hl]
  constructor
  · intro h
    by_contra hc
    push Not at hc
    have : x.testBit (l - 1) = true := by
      rw [Nat.testBit_eq_decide_div_mod_eq, decide_eq_true_eq]
      have : x / 2 ^ (l - 1) = 1 := by
        rw [Nat.div_eq_iff (by positivity)]
        constructor <;> omega
      rw [this]
    rw [this] at h
    simp at h
  · intro h
    rw [Nat.testBit_lt_two_pow h]; simp

theorem and_moldN {l : Nat} (hl : 0 < l) : ∀ (n D : Nat), D &&& moldN l n = 0 ↔ topClear l n D
  | 0, D => by simp [moldN, topClear]
  | n + 1, D => by
    have h2 : 2 ^ (l - 1) < 2 ^ l := Nat.pow_lt_pow_right (by norm_num) (by omega)
    rw [and_split l, topClear]
    have e1 : moldN l (n + 1) % 2 ^ l = 2 ^ (l - 1) := by
      rw [moldN, Nat.add_mul_mod_self_left, Nat.mod_eq_of_lt h2]
    have e2 : moldN l (n + 1) / 2 ^ l = moldN l n := by
      rw [moldN, Nat.add_mul_div_left _ _ (by positivity), Nat.div_eq_of_lt h2, zero_add]
    rw [e1, e2, and_top hl (Nat.mod_lt _ (by positivity)), and_moldN hl n]

theorem moldN_lt {l : Nat} (hl : 0 < l) (n : Nat) : moldN l n < 2 ^ (l * n) := by
  induction n with
  | zero => simp [moldN]
  | succ n ih =>
    have h2 : 2 ^ (l - 1) < 2 ^ l := Nat.pow_lt_pow_right (by norm_num) (by omega)
    rw [moldN, Nat.mul_succ, pow_add, mul_comm (2 ^ (l * n))]
    have : 2 ^ l * (moldN l n + 1) ≤ 2 ^ l * 2 ^ (l * n) := Nat.mul_le_mul_left _ ih
    rw [mul_add, mul_one] at this
    omega

/-- adding a field at the top or at the bottom is the same -/
theorem moldN_shift (l n : Nat) : moldN l n * 2 ^ l + 2 ^ (l - 1) = moldN l (n + 1) := by
  rw [moldN]; ring

theorem moldBits_eq {l : Nat} (hl : 0 < l) : ∀ (k n : Nat), l * (n + k) ≤ 64 → moldBits l k (moldN l n) = moldN l (n + k)
  | 0, n, _ => rfl
  | k + 1, n, h => by
    have h1 : l * (n + 1) ≤ 64 := le_trans (Nat.mul_le_mul_left _ (by omega)) h
    have hM := moldN_lt hl (n + 1)
    have hW : moldN l (n + 1) < W := lt_of_lt_of_le hM (by rw [W_eq]; exact Nat.pow_le_pow_right (by norm_num) h1)
    have key : shl64 (addW (shl64 (moldN l n) 1) 1) (l + 63) = moldN l (n + 1) := by
      have hb : 2 * moldN l n + 1 ≤ moldN l (n + 1) := by
        rw [moldN]
        obtain ⟨j, rfl⟩ : ∃ j, l = j + 1 := ⟨l - 1, by omega⟩
        have h1 : 1 ≤ 2 ^ j := Nat.one_le_two_pow
        rw [Nat.add_sub_cancel, pow_succ]
        have : 2 * moldN (j + 1) n ≤ 2 ^ j * 2 * moldN (j + 1) n := by
          have := Nat.mul_le_mul_right (2 * moldN (j + 1) n) h1
          linarith [this]
        omega
      have hl64 : l ≤ 64 := by
        have : l * 1 ≤ l * (n + 1) := Nat.mul_le_mul_left _ (by omega)
        omega
      have e1 : shl64 (moldN l n) 1 = 2 * moldN l n := by
        unfold shl64 shlW
        rw [Nat.mod_eq_of_lt (show 1 < 64 by norm_num), pow_one, Nat.mod_eq_of_lt (by omega), mul_comm]
      have e2 : addW (2 * moldN l n) 1 = 2 * moldN l n + 1 := by
        unfold addW
        exact Nat.mod_eq_of_lt (by omega)
      have e3 : (l + 63) % 64 = l - 1 := by omega
      rw [e1, e2]
      unfold shl64 shlW
      rw [e3]
      have e4 : (2 * moldN l n + 1) * 2 ^ (l - 1) = moldN l (n + 1) := by
        rw [← moldN_shift]
        obtain ⟨j, rfl⟩ : ∃ j, l = j + 1 := ⟨l - 1, by omega⟩
        rw [Nat.add_sub_cancel, pow_succ]; ring
      rw [e4, Nat.mod_eq_of_lt hW]
    rw [moldBits, key, moldBits_eq hl k (n + 1) (by rw [show n + 1 + k = n + (k + 1) by ring]; exact h)]
    congr 1; ring

theorem moldBits_zero {l n : Nat} (hl : 0 < l) (h : l * n ≤ 64) : moldBits l n 0 = moldN l n := by
  have := moldBits_eq hl n 0 (by rwa [zero_add])
  rwa [zero_add] at this

/-- the digits of a number with clear top bits -/
theorem digits_of_topClear {l : Nat} (hl : 0 < l) : ∀ (n D : Nat), topClear l n D →
    ∃ c : List Nat, c.length = n ∧ (∀ d ∈ c, d < 2 ^ (l - 1)) ∧ D % (2 ^ l) ^ n = le (2 ^ l) c
  | 0, D, _ => ⟨[], rfl, by simp, by simp [le, Nat.mod_one]⟩
  | n + 1, D, ⟨h1, h2⟩ => by
    obtain ⟨c, c1, c2, c3⟩ := digits_of_topClear hl n _ h2
    refine ⟨D % 2 ^ l :: c, by simp [c1], ?_, ?_⟩
    · intro d hd
      rcases List.mem_cons.1 hd with rfl | hd
      · exact h1
      · exact c2 d hd
    · rw [le, ← c3, pow_succ, mul_comm ((2 ^ l) ^ n), Nat.mod_mul]

theorem topClear_le {l : Nat} (hl : 0 < l) : ∀ c : List Nat, (∀ d ∈ c, d < 2 ^ (l - 1)) → topClear l c.length (le (2 ^ l) c)
  | [], _ => trivial
  | d :: c, h => by
    have h2 : 2 ^ (l - 1) < 2 ^ l := Nat.pow_lt_pow_right (by norm_num) (by omega)
    have hd := h d (by simp)
    have e1 : le (2 ^ l) (d :: c) % 2 ^ l = d := by rw [le, Nat.add_mul_mod_self_left, Nat.mod_eq_of_lt (by omega)]
    have e2 : le (2 ^ l) (d :: c) / 2 ^ l = le (2 ^ l) c := by
      rw [le, Nat.add_mul_div_left _ _ (by positivity), Nat.div_eq_of_lt (by omega), zero_add]
    refine ⟨by rw [e1]; exact hd, ?_⟩
    rw [e2]; exact topClear_le hl c fun x hx => h x (List.mem_cons_of_mem _ hx)

theorem le_zipAdd (B : Nat) : ∀ a b : List Nat, a.length = b.length →
    le B (List.zipWith (· + ·) a b) = le B a + le B b
  | [], [], _ => rfl
  | [], _ :: _, h => by simp at h
  | _ :: _, [], h => by simp at h
  | x :: a, y :: b, h => by
    rw [List.zipWith_cons_cons, le, le, le, le_zipAdd B a b (by simpa using h)]; ring

theorem zipAdd_lt {H : Nat} : ∀ a b : List Nat, (∀ d ∈ a, d < H) → (∀ d ∈ b, d ≤ H) →
    ∀ d ∈ List.zipWith (· + ·) a b, d < 2 * H := by
  intro a b ha hb d hd
  obtain ⟨i, hi, rfl⟩ := List.getElem_of_mem hd
  rw [List.getElem_zipWith]
  have h1 := ha _ (List.getElem_mem (l := a) (n := i) (by simp at hi; omega))
  have h2 := hb _ (List.getElem_mem (l := b) (n := i) (by simp at hi; omega))
  omega

/-- **the test**: the difference of two packed words has all top bits clear exactly when the digits subtract without
borrow to digits with clear top bit -/
theorem mold_test {l : Nat} (hl : 0 < l) {a b : List Nat} (hlen : a.length = b.length) (h64 : l * a.length ≤ 64)
    (ha : ∀ d ∈ a, d < 2 ^ l) (hb : ∀ d ∈ b, d ≤ 2 ^ (l - 1)) :
    subW (num (2 ^ l) a 0) (num (2 ^ l) b 0) &&& moldBits l a.length 0 = 0 ↔
      ∃ c : List Nat, c.length = a.length ∧ (∀ d ∈ c, d < 2 ^ (l - 1)) ∧ a = List.zipWith (· + ·) c b := by
  have h2 : 2 ^ l = 2 * 2 ^ (l - 1) := by rw [← pow_succ', Nat.sub_add_cancel hl]
  have hWd : W = (2 ^ l) ^ a.length * 2 ^ (64 - l * a.length) := by
    rw [W_eq, ← pow_mul, ← pow_add]; congr 1; omega
  have hbl : ∀ d ∈ b, d < 2 ^ l := fun d hd => by have := hb d hd; have : 0 < 2 ^ (l - 1) := by positivity
                                                  omega
  have hB1 := num_lt (2 ^ l) b hbl
  have hA1 := num_lt (2 ^ l) a ha
  rw [← hlen] at hB1
  have hBW : (2 ^ l) ^ a.length ≤ W := by
    rw [W_eq, ← pow_mul]; exact Nat.pow_le_pow_right (by norm_num) h64
  rw [moldBits_zero hl h64, and_moldN hl]
  constructor
  · intro h
    obtain ⟨c, c1, c2, c3⟩ := digits_of_topClear hl _ _ h
    refine ⟨c.reverse, by simp [c1], by simpa using c2, ?_⟩
    set D := subW (num (2 ^ l) a 0) (num (2 ^ l) b 0) with hD
    have hDW : D < W := by
      rw [hD]; unfold subW
      exact Nat.mod_lt _ (by rw [W_eq]; positivity)
    clear_value D
    obtain ⟨P, hP⟩ : ∃ P, P = (2 ^ l) ^ a.length := ⟨_, rfl⟩
    have hP0 : 0 < P := by rw [hP]; positivity
    rw [← hP] at hWd hB1 hA1 hBW c3
    have hsum : (D + num (2 ^ l) b 0) % W = num (2 ^ l) a 0 := by
      rw [hD]; unfold subW
      rw [Nat.mod_add_mod, Nat.mod_eq_of_lt (show num (2 ^ l) b 0 < W by omega),
        show num (2 ^ l) a 0 + (W - num (2 ^ l) b 0) + num (2 ^ l) b 0 = num (2 ^ l) a 0 + W by omega,
        Nat.add_mod_right, Nat.mod_eq_of_lt (by omega)]
    have hz : le (2 ^ l) (List.zipWith (· + ·) c b.reverse) = le (2 ^ l) c + num (2 ^ l) b 0 := by
      rw [le_zipAdd _ _ _ (by simp [c1, hlen]), num_eq_le]
    have hzd : ∀ d ∈ List.zipWith (· + ·) c b.reverse, d < 2 ^ l := by
      rw [h2]; exact zipAdd_lt _ _ c2 (by simpa using hb)
    have hzl : (List.zipWith (· + ·) c b.reverse).length = a.length := by simp [c1, hlen]
    have hzP := le_lt (2 ^ l) _ hzd
    rw [hzl, hz, ← c3, ← hP] at hzP
    have hDe := Nat.div_add_mod D P
    generalize D / P = e at hDe
    have he1 : P * (e + 1) ≤ W := by
      conv_rhs => rw [hWd]
      apply Nat.mul_le_mul_left
      have h3 : P * e < P * 2 ^ (64 - l * a.length) := by rw [← hWd]; omega
      exact Nat.lt_of_mul_lt_mul_left h3
    rw [mul_add, mul_one] at he1
    rw [Nat.mod_eq_of_lt (by omega)] at hsum
    have he0 : e = 0 := by
      by_contra hne
      have h5 : P * 1 ≤ P * e := Nat.mul_le_mul_left _ (by omega)
      omega
    rw [he0, mul_zero, zero_add] at hDe
    have hfin : le (2 ^ l) (List.zipWith (· + ·) c b.reverse) = le (2 ^ l) a.reverse := by
      rw [hz, ← c3, hDe, hsum, num_eq_le]
    have := le_inj _ _ _ hzd (by simpa using ha) (by simp [c1, hlen]) hfin
    rw [← List.reverse_reverse a, ← this, List.reverse_zipWith (by simp [c1, hlen]), List.reverse_reverse]
  · rintro ⟨c, c1, c2, c3⟩
    have hz : num (2 ^ l) a 0 = le (2 ^ l) c.reverse + num (2 ^ l) b 0 := by
      rw [num_eq_le, num_eq_le, ← le_zipAdd _ _ _ (by simp [c1, hlen]), ← List.reverse_zipWith (by rw [c1, hlen]), ← c3]
    have hD : subW (num (2 ^ l) a 0) (num (2 ^ l) b 0) = le (2 ^ l) c.reverse := by
      unfold subW
      rw [Nat.mod_eq_of_lt (show num (2 ^ l) b 0 < W by omega),
        show num (2 ^ l) a 0 + (W - num (2 ^ l) b 0) = le (2 ^ l) c.reverse + W by omega,
        Nat.add_mod_right, Nat.mod_eq_of_lt (by omega)]
    rw [hD]
    have := topClear_le hl c.reverse (by simpa using c2)
    rwa [List.length_reverse, c1] at this

end CLPoly
