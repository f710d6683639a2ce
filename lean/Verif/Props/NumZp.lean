import Verif.Num.ZpLemmas
import Verif.Props.NumZZ

/-!
# Properties C07–C10: `Zp`

`Zp.WF z`: the object has a modulus `2 ≤ p < 2^64`, its value is below `p`, and the cached reciprocal and
shift are the ones the constructor computes.  `z.cls : ZMod p` is the residue class it denotes.
`Zp.Is z p c`: `z` is well formed, has modulus `p` and denotes the class `c`.
Primality is only needed for inverses; everything else is proved for every modulus.
-/

namespace CLPoly
namespace Zp

/-- representation invariant of a `Zp` object with a modulus set -/
def WF (z : Zp) : Prop :=
  2 ≤ z.p ∧ z.p < W ∧ z.i < z.p ∧ z.ninv = (precompute z.p).1 ∧ z.norm = (precompute z.p).2

/-- `z` is a well-formed element of `ℤ/p` denoting the class `c` -/
def Is (z : Zp) (p : Nat) (c : ZMod p) : Prop := z.WF ∧ z.p = p ∧ (z.i : ZMod p) = c

instance (z : Zp) : Decidable z.WF := by unfold WF; infer_instance

theorem WF.nmod {z : Zp} (h : z.WF) {a b : Nat} (ha : a < z.p) (hb : b < W) :
    nmodMul z.p z.ninv z.norm a b = (a * b) % z.p := by
  obtain ⟨h2, hW, hi, e1, e2⟩ := h
  rw [e1, e2]
  simp only [precompute, show z.p ≠ 0 by omega, if_false]
  exact nmodMul_eq z.p a b (by omega) hW ha hb

end Zp
open Zp

/-! ## C07 -/

theorem C07_Zp_add (p : Nat) (a b : Zp) (x y : ZMod p) (ha : a.Is p x) (hb : b.Is p y) :
    (Zp.add a b).Is p (x + y) := by
  obtain ⟨⟨h2, hW, hi, e1, e2⟩, rfl, rfl⟩ := ha
  obtain ⟨⟨-, -, hj, -, -⟩, hp, rfl⟩ := hb
  rw [hp] at hj
  have hn : subW a.p a.i = a.p - a.i := subW_of_le hW hi.le
  have key : (Zp.add a b).i < a.p ∧ (((Zp.add a b).i : Nat) : ZMod a.p) = a.i + b.i := by
    simp only [Zp.add, hn]
    by_cases h : a.p - a.i > b.i
    · simp only [h, if_true]; rw [addW_of_lt (by omega)]
      exact ⟨by omega, by push_cast; rfl⟩
    · simp only [h, if_false]; rw [subW_of_le (by omega) (by omega)]
      refine ⟨by omega, ?_⟩
      have : b.i - (a.p - a.i) + a.p = a.i + b.i := by omega
      have := congrArg (fun n : Nat => (n : ZMod a.p)) this
      simpa using this
  exact ⟨⟨h2, hW, key.1, e1, e2⟩, rfl, key.2⟩

theorem C07_Zp_sub (p : Nat) (a b : Zp) (x y : ZMod p) (ha : a.Is p x) (hb : b.Is p y) :
    (Zp.sub a b).Is p (x - y) := by
  obtain ⟨⟨h2, hW, hi, e1, e2⟩, rfl, rfl⟩ := ha
  obtain ⟨⟨-, -, hj, -, -⟩, hp, rfl⟩ := hb
  rw [hp] at hj
  have key : (Zp.sub a b).i < a.p ∧ (((Zp.sub a b).i : Nat) : ZMod a.p) = a.i - b.i := by
    simp only [Zp.sub]
    by_cases h : a.i ≥ b.i
    · simp only [h, if_true]; rw [subW_of_le (by omega) h]
      exact ⟨by omega, by rw [Nat.cast_sub h]⟩
    · simp only [h, if_false]; rw [subW_of_le hW hj.le, addW_of_lt (by omega)]
      refine ⟨by omega, ?_⟩
      rw [Nat.cast_add, Nat.cast_sub hj.le]; simp; ring
  exact ⟨⟨h2, hW, key.1, e1, e2⟩, rfl, key.2⟩

theorem C07_Zp_neg (p : Nat) (a : Zp) (x : ZMod p) (ha : a.Is p x) : (Zp.neg a).Is p (-x) := by
  obtain ⟨⟨h2, hW, hi, e1, e2⟩, rfl, rfl⟩ := ha
  have key : (Zp.neg a).i < a.p ∧ (((Zp.neg a).i : Nat) : ZMod a.p) = -a.i := by
    simp only [Zp.neg]
    by_cases h : a.i = 0
    · simp only [h, if_true]; exact ⟨by omega, by simp⟩
    · simp only [h, if_false]; rw [subW_of_le hW hi.le]
      refine ⟨by omega, ?_⟩
      rw [Nat.cast_sub hi.le]; simp
  exact ⟨⟨h2, hW, key.1, e1, e2⟩, rfl, key.2⟩

/-- Equality of objects is equality of residue classes. -/
theorem C07_Zp_beq (p : Nat) (a b : Zp) (x y : ZMod p) (ha : a.Is p x) (hb : b.Is p y) :
    Zp.beq a b = true ↔ x = y := by
  obtain ⟨⟨h2, hW, hi, -, -⟩, rfl, rfl⟩ := ha
  obtain ⟨⟨-, -, hj, -, -⟩, hp, rfl⟩ := hb
  rw [hp] at hj
  simp only [Zp.beq, beq_iff_eq]
  rw [ZMod.natCast_eq_natCast_iff, Nat.ModEq, Nat.mod_eq_of_lt hi, Nat.mod_eq_of_lt hj]

-- a modulus above 2^63, where the plain word sum would wrap
example : (Zp.ofU64 18446744073709551556 18446744073709551557).Is 18446744073709551557
      ((18446744073709551556 : Nat) : ZMod 18446744073709551557) ∧
    (Zp.add (Zp.ofU64 18446744073709551556 18446744073709551557)
      (Zp.ofU64 18446744073709551555 18446744073709551557)).i = 18446744073709551554 := by
  refine ⟨⟨by decide +kernel, rfl, ?_⟩, by decide +kernel⟩
  rw [show (Zp.ofU64 18446744073709551556 18446744073709551557).i = 18446744073709551556 by decide +kernel]

/-! ## C08 -/

/-- The word-level statement: reduction of a product with the precomputed normalised reciprocal is exact,
for every modulus `0 < p < 2^64`, every residue `a < p` and every word `b`. -/
theorem C08_nmod_mul (p a b : Nat) (hp : 0 < p) (hW : p < 2 ^ 64) (ha : a < p) (hb : b < 2 ^ 64) :
    nmodMul p (preinvertLimb (shlW p (clz p))) (clz p) a b = (a * b) % p :=
  nmodMul_eq p a b hp hW ha hb

theorem C08_Zp_mul (p : Nat) (a b : Zp) (x y : ZMod p) (ha : a.Is p x) (hb : b.Is p y) :
    (Zp.mul a b).Is p (x * y) := by
  obtain ⟨hwf, rfl, rfl⟩ := ha
  obtain ⟨⟨-, -, hj, -, -⟩, hp, rfl⟩ := hb
  have ⟨h2, hW, hi, e1, e2⟩ := hwf
  rw [hp] at hj
  have e : (Zp.mul a b).i = (a.i * b.i) % a.p := by
    simp only [Zp.mul]; exact hwf.nmod hi (by omega)
  refine ⟨⟨h2, hW, ?_, e1, e2⟩, rfl, ?_⟩
  · rw [e]; exact Nat.mod_lt _ (by show 0 < a.p; omega)
  · rw [e, ZMod.natCast_mod]; push_cast; rfl

/-- fused forms, including an accumulator whose modulus is not set yet -/
theorem C08_Zp_addmul_submul (p : Nat) (o a b : Zp) (w x y : ZMod p)
    (ho : o.Is p w ∨ (o.p = 0 ∧ o.i = 0 ∧ w = 0)) (ha : a.Is p x) (hb : b.Is p y) :
    (Zp.addmul o a b).Is p (w + x * y) ∧ (Zp.submul o a b).Is p (w - x * y) := by
  have hm := C08_Zp_mul p a b x y ha hb
  unfold Zp.addmul Zp.submul
  rcases ho with ho | ⟨h0, h1, rfl⟩
  · have : o.p ≠ 0 := by have := ho.1.1; omega
    simp only [this, if_false]
    exact ⟨C07_Zp_add _ _ _ _ _ ho hm, C07_Zp_sub _ _ _ _ _ ho hm⟩
  · simp only [h0, if_true]
    have : Zp.Is { o with p := a.p, ninv := (precompute a.p).1, norm := (precompute a.p).2 } p 0 := by
      obtain ⟨⟨h2, hW, hi, e1, e2⟩, rfl, -⟩ := ha
      exact ⟨⟨h2, hW, by simp only [h1]; omega, rfl, rfl⟩, rfl, by simp [h1]⟩
    exact ⟨C07_Zp_add _ _ _ _ _ this hm, C07_Zp_sub _ _ _ _ _ this hm⟩

example : nmodMul 18446744073709551557 (preinvertLimb (shlW 18446744073709551557 (clz 18446744073709551557)))
    (clz 18446744073709551557) 18446744073709551556 18446744073709551556 = 1 := by decide +kernel

/-! ## C09 -/

theorem C09_Zp_inv (p : Nat) [Fact p.Prime] (a : Zp) (x : ZMod p) (ha : a.Is p x) (hx : x ≠ 0) :
    ∃ r, Zp.inv a = .ok r ∧ r.Is p x⁻¹ := by
  obtain ⟨⟨h2, hW, hi, e1, e2⟩, rfl, rfl⟩ := ha
  have hi0 : a.i ≠ 0 := by rintro h; rw [h] at hx; simp at hx
  have hc : Nat.Coprime a.i a.p :=
    ((Fact.out : a.p.Prime).coprime_iff_not_dvd.2 (fun hd => by
      have := Nat.le_of_dvd (by omega) hd; omega)).symm
  obtain ⟨r, hr, hrp, hm⟩ := invPrime_spec a.p a.i h2 hW hi0 hc
  refine ⟨{ Zp.zero a.p with i := r }, by simp only [Zp.inv, hr, Out.bind_ok, Out.pure_eq], ⟨⟨h2, hW, hrp, rfl, rfl⟩, rfl, ?_⟩⟩
  exact eq_inv_of_mul_eq_one_left hm

theorem C09_Zp_div (p : Nat) [Fact p.Prime] (a b : Zp) (x y : ZMod p) (ha : a.Is p x) (hb : b.Is p y)
    (hy : y ≠ 0) : ∃ r, Zp.div a b = .ok r ∧ r.Is p (x / y) := by
  obtain ⟨hwf, rfl, rfl⟩ := ha
  have ⟨h2, hW, hi, e1, e2⟩ := hwf
  obtain ⟨⟨-, -, hj, -, -⟩, hp, rfl⟩ := hb
  rw [hp] at hj
  have hi0 : b.i ≠ 0 := by rintro h; rw [h] at hy; simp at hy
  have hc : Nat.Coprime b.i a.p :=
    ((Fact.out : a.p.Prime).coprime_iff_not_dvd.2 (fun hd => by
      have := Nat.le_of_dvd (by omega) hd; omega)).symm
  obtain ⟨r, hr, hrp, hm⟩ := invPrime_spec a.p b.i h2 hW hi0 hc
  have hrW : r < W := by omega
  refine ⟨{ a with i := nmodMul a.p a.ninv a.norm a.i r },
    by simp only [Zp.div, hr, Out.bind_ok, Out.pure_eq], ⟨⟨h2, hW, ?_, e1, e2⟩, rfl, ?_⟩⟩
  · simp only; rw [hwf.nmod hi hrW]; exact Nat.mod_lt _ (by omega)
  · simp only; rw [hwf.nmod hi hrW, ZMod.natCast_mod]; push_cast
    rw [eq_inv_of_mul_eq_one_left hm, div_eq_mul_inv]

/-- The inverse of zero (and division by zero) does not return a value: it is an assertion failure or a
machine division by zero. -/
theorem C09_Zp_inv_zero (p : Nat) (a b : Zp) (ha : a.Is p 0) :
    Zp.inv a = .ub ∧ (b.p = p → Zp.div b a = .ub) := by
  obtain ⟨⟨h2, hW, hi, e1, e2⟩, rfl, h0⟩ := ha
  have : a.i = 0 := by
    have := (ZMod.natCast_eq_zero_iff _ _).1 h0
    exact Nat.eq_zero_of_dvd_of_lt this hi
  simp [Zp.inv, Zp.div, invPrime, this]

/-- For any modulus (not only primes) `inv_prime` inverts the units. -/
theorem C09_inv_prime_units (p i : Nat) (hp : 2 ≤ p) (hpW : p < 2 ^ 64) (hi : i ≠ 0)
    (hc : Nat.Coprime i p) : ∃ r, invPrime i p = .ok r ∧ r < p ∧ (r * i) % p = 1 := by
  obtain ⟨r, h1, h2, h3⟩ := invPrime_spec p i hp hpW hi hc
  refine ⟨r, h1, h2, ?_⟩
  have : ((r * i : Nat) : ZMod p) = ((1 : Nat) : ZMod p) := by push_cast; exact h3
  rw [ZMod.natCast_eq_natCast_iff, Nat.ModEq, Nat.mod_eq_of_lt (by omega : 1 < p)] at this
  exact this

example : invPrime 12345 18446744073709551557 = .ok 6398457523177343035 ∧
    (12345 * 6398457523177343035) % 18446744073709551557 = 1 := by
  simp [invPrime, invLoop, subW, addW, W]

/-! ## C10 -/

theorem residueI64_spec (i : Int) (p : Nat) (hp : 2 ≤ p) (hW : p < W) (hi : InI64 i) :
    residueI64 i p < p ∧ ((residueI64 i p : Nat) : ZMod p) = (i : ZMod p) := by
  unfold InI64 i64min i64max at hi
  have hWi : (W : Int) = 18446744073709551616 := rfl
  by_cases h : i ≥ 0
  · obtain ⟨n, rfl⟩ := Int.eq_ofNat_of_zero_le h
    have hn : ((n : Int) % W).toNat = n := by rw [Int.emod_eq_of_lt (by omega) (by omega)]; simp
    simp only [residueI64, h, if_true, hn]
    have hlt : n % p < p := Nat.mod_lt _ (by omega)
    by_cases hz : n % p = 0 ∨ (n : Int) > 0
    · simp only [hz, if_true]
      exact ⟨hlt, by rw [ZMod.natCast_mod]; simp⟩
    · push Not at hz
      have : n = 0 := by omega
      subst this; simp at hz
  · obtain ⟨n, rfl⟩ : ∃ n : Nat, i = -(n : Int) := ⟨i.natAbs, by omega⟩
    have hn : subW 0 ((-(n : Int)) % W).toNat = n := by
      zify
      rw [subW_cast, Int.toNat_of_nonneg (Int.emod_nonneg _ (by decide))]
      rw [Int.sub_emod, Int.emod_emod_of_dvd _ (dvd_refl _), ← Int.sub_emod]
      simp only [Nat.cast_zero, zero_sub, neg_neg]
      exact Int.emod_eq_of_lt (by omega) (by omega)
    simp only [residueI64, h, if_false, hn]
    have hlt : n % p < p := Nat.mod_lt _ (by omega)
    have hz' : ¬ (-(n : Int) > 0) := by omega
    by_cases hz : n % p = 0
    · simp only [hz, true_or, if_true]
      refine ⟨by omega, ?_⟩
      have : (n : ZMod p) = 0 := by rw [← ZMod.natCast_mod, hz]; simp
      push_cast; rw [this]; simp
    · simp only [hz, hz', or_self, if_false]
      rw [subW_of_le hW hlt.le]
      refine ⟨by omega, ?_⟩
      rw [Nat.cast_sub hlt.le, ZMod.natCast_mod]; push_cast; simp

theorem C10_Zp_ofI64 (p : Nat) (i : Int) (hp : 2 ≤ p) (hW : p < 2 ^ 64) (hi : InI64 i) :
    (Zp.ofI64 i p).Is p (i : ZMod p) := by
  obtain ⟨h1, h2⟩ := residueI64_spec i p hp hW hi
  exact ⟨⟨hp, hW, h1, rfl, rfl⟩, rfl, h2⟩

theorem C10_Zp_ofU64 (p i : Nat) (hp : 2 ≤ p) (hW : p < 2 ^ 64) :
    (Zp.ofU64 i p).Is p (i : ZMod p) :=
  ⟨⟨hp, hW, Nat.mod_lt _ (by omega), rfl, rfl⟩, rfl, by simp [Zp.ofU64]⟩

/-- assignment from a machine integer -/
theorem C10_Zp_assign (p : Nat) (a : Zp) (x : ZMod p) (i : Int) (ha : a.Is p x) (hi : InI64 i) :
    (Zp.assignI64 a i).Is p (i : ZMod p) := by
  obtain ⟨⟨h2, hW, -, e1, e2⟩, rfl, -⟩ := ha
  obtain ⟨h1, h3⟩ := residueI64_spec i a.p h2 hW hi
  simp only [Zp.assignI64, show a.p ≠ 0 by omega, if_false]
  exact ⟨⟨h2, hW, h1, e1, e2⟩, rfl, h3⟩

/-- Construction from a `ZZ`; missing from the full property: the value `INT64_MIN`, for which
`fdiv_ui` is undefined. -/
theorem C10_Zp_ofZZ_partial (p : Nat) (a : ZZ) (hp : 2 ≤ p) (hW : p < 2 ^ 64) :
    (Zp.ofZZ a p = .ub ↔ a = ZZ.small i64min) ∧
    (a ≠ ZZ.small i64min → ∃ r, Zp.ofZZ a p = .ok r ∧ r.Is p (a.val : ZMod p)) := by
  obtain ⟨h1, h2⟩ := C03_ZZ_fdivUi_partial a p (by omega)
  unfold Zp.ofZZ
  by_cases h : a = ZZ.small i64min
  · rw [h1.2 h]; simp [h]
  · obtain ⟨r, hr, hrp, hv⟩ := h2 h
    rw [hr]
    refine ⟨by simp [h], fun _ => ⟨_, rfl, ⟨hp, hW, hrp, rfl, rfl⟩, rfl, ?_⟩⟩
    simp only
    have : ((r : Int) : ZMod p) = ((a.val % p : Int) : ZMod p) := by rw [hv]
    simpa using this

theorem powLoop_spec (p : Nat) (n : Nat) : ∀ (o z : Zp) (x y : ZMod p), o.Is p x → z.Is p y →
    (powLoop o z n).Is p (x * y ^ n) := by
  induction n using Nat.strong_induction_on with
  | _ n ih =>
    intro o z x y ho hz
    rw [powLoop]
    by_cases h0 : n = 0
    · simpa [h0] using ho
    · simp only [h0, dite_false]
      have ho' : (if n % 2 ≠ 0 then Zp.mul o z else o).Is p (x * y ^ (n % 2)) := by
        by_cases h : n % 2 = 0
        · simpa [h] using ho
        · have h1 : n % 2 = 1 := by omega
          simpa [h1] using C08_Zp_mul _ _ _ _ _ ho hz
      by_cases h2 : n / 2 = 0
      · have h1 : n = 1 := by omega
        subst h1
        rw [powLoop]
        simpa using C08_Zp_mul _ _ _ _ _ ho hz
      · simp only [ne_eq, h2, not_false_eq_true, if_true] at ho' ⊢
        have := ih (n / 2) (by omega) _ _ _ _ ho' (C08_Zp_mul _ _ _ _ _ hz hz)
        convert this using 1
        have hn : n % 2 + 2 * (n / 2) = n := Nat.mod_add_div n 2
        conv_lhs => rw [← hn, pow_add, pow_mul]
        ring

theorem C10_Zp_pow (p : Nat) (a : Zp) (x : ZMod p) (n : Nat) (ha : a.Is p x) :
    (Zp.pow a n).Is p (x ^ n) := by
  have h1 : (Zp.ofI64 1 a.p).Is p ((1 : Int) : ZMod p) := by
    have := ha.2.1; subst this
    exact C10_Zp_ofI64 a.p 1 ha.1.1 ha.1.2.1 (by decide)
  have := powLoop_spec p n _ _ _ _ h1 ha
  simpa [Zp.pow] using this

/-- product and comparison with a machine integer -/
theorem C10_Zp_mulI64 (p : Nat) (a : Zp) (x : ZMod p) (k : Int) (ha : a.Is p x) (hk : InI64 k) :
    (Zp.mulI64 a k).Is p (x * k) ∧ (Zp.beqI64 a k = true ↔ x = k) := by
  have hp := ha.2.1
  have hk' : (Zp.ofI64 k a.p).Is p (k : ZMod p) := by
    subst hp; exact C10_Zp_ofI64 _ _ ha.1.1 ha.1.2.1 hk
  exact ⟨C08_Zp_mul p a _ x _ ha hk', C07_Zp_beq p a _ x _ ha hk'⟩

example : (Zp.ofI64 (-9223372036854775808) 1000000007).i = 708828003 := by decide +kernel

end CLPoly
