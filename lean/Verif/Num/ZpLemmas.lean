import Verif.Num.Zp
import Mathlib.Tactic.Ring
import Mathlib.Tactic.Linarith
import Mathlib.Tactic.Zify
import Mathlib.Tactic.LinearCombination
import Mathlib.Data.Nat.Log
import Mathlib.Data.Int.GCD
import Mathlib.Data.ZMod.Basic
import Mathlib.Algebra.Field.ZMod

namespace CLPoly

theorem subW_of_le {a b : Nat} (ha : a < W) (h : b ≤ a) : subW a b = a - b := by
  unfold subW
  rw [Nat.mod_eq_of_lt (lt_of_le_of_lt h ha)]
  have : a + (W - b) = (a - b) + W := by omega
  rw [this, Nat.add_mod_right, Nat.mod_eq_of_lt (by omega)]

theorem addW_of_lt {a b : Nat} (h : a + b < W) : addW a b = a + b := Nat.mod_eq_of_lt h

theorem subW_cast (a b : Nat) : ((subW a b : Nat) : ℤ) = (a - b : ℤ) % W := by
  unfold subW
  have h : b % W < W := Nat.mod_lt _ (by decide)
  rw [Int.natCast_mod]
  push_cast [Nat.cast_sub h.le]
  rw [show (a : ℤ) + (W - (b : ℤ) % W) = a - (b : ℤ) % W + W by ring, Int.add_emod_right,
    Int.sub_emod, Int.emod_emod_of_dvd _ (dvd_refl _), ← Int.sub_emod]

/-- Correctness of 2-by-1 reduction with a precomputed reciprocal (Möller–Granlund), for a
normalised divisor `d`, dividend `hi*2^64+lo` with `hi < d`. -/
theorem barrett_core (d hi lo : Nat) (hd : W ≤ 2 * d) (hdW : d < W) (hhi : hi < d) (hlo : lo < W) :
    let ninv := preinvertLimb d
    let qm := hi * ninv
    let q0' := addW (qm % W) lo
    let q1' := addW (qm / W) (addW hi (if q0' < lo then 1 else 0))
    let r := subW lo (mulW (addW q1' 1) d)
    let r' := if r > q0' then addW r d else r
    (if r' ≥ d then subW r' d else r') = (hi * W + lo) % d := by
  intro ninv qm q0' q1' r r'
  have hW : 0 < W := by decide
  have hd0 : 0 < d := by omega
  -- the reciprocal
  obtain ⟨v, hv, hv1, hv2⟩ : ∃ v, ninv = v ∧ (W + v) * d ≤ W * W - 1 ∧ W * W - 1 < (W + v + 1) * d := by
    refine ⟨_, rfl, ?_⟩
    have e1 : notW d * W + (W - 1) = (W * W - 1) - W * d := by
      unfold notW
      rw [Nat.sub_mul, Nat.sub_mul, Nat.mul_comm d W, Nat.one_mul]
      have : W * d ≤ W * W - W := by
        have : W * d ≤ W * (W - 1) := Nat.mul_le_mul_left _ (by omega)
        rwa [Nat.mul_sub, Nat.mul_one] at this
      have : W ≤ W * W := Nat.le_mul_of_pos_left _ hW
      omega
    have hWd : W * d ≤ W * W - 1 := by
      have : W * d < W * W := Nat.mul_lt_mul_of_pos_left hdW hW
      omega
    have h0 : (notW d * W + (W - 1)) / d < W := by
      rw [Nat.div_lt_iff_lt_mul hd0, e1]
      have : W * W ≤ W * (2 * d) := Nat.mul_le_mul_left _ hd
      have : W * (2 * d) = W * d + W * d := by ring
      have : 0 < W * W := Nat.mul_pos hW hW
      omega
    have hn : ninv = (notW d * W + (W - 1)) / d := Nat.mod_eq_of_lt h0
    rw [hn, e1]
    have h1 := Nat.div_add_mod ((W * W - 1) - W * d) d
    have h2 := Nat.mod_lt ((W * W - 1) - W * d) hd0
    set k := ((W * W - 1) - W * d) / d with hk
    constructor
    · have : (W + k) * d = W * d + d * k := by ring
      omega
    · have : (W + k + 1) * d = W * d + d * k + d := by ring
      omega
  have hqm : qm = hi * v := by simp only [qm, hv]
  -- quotient estimate
  have hsum : q1' * W + q0' = (W + v) * hi + lo := by
    have hlt : (W + v) * hi + lo < W * W := by
      have : (W + v) * hi ≤ (W + v) * (d - 1) := Nat.mul_le_mul_left _ (by omega)
      have e : (W + v) * (d - 1) + (W + v) = (W + v) * d := by
        rw [← Nat.mul_succ]; congr 1; omega
      omega
    have hq := Nat.div_add_mod qm W
    have hq0 : qm % W < W := Nat.mod_lt _ hW
    have hb : (W + v) * hi = hi * W + qm := by rw [hqm]; ring
    by_cases hc : qm % W + lo < W
    · have e0 : q0' = qm % W + lo := addW_of_lt hc
      have hnc : ¬ q0' < lo := by omega
      have e1 : q1' = qm / W + hi := by
        simp only [q1', hnc, if_false]
        have h2 : qm / W + hi < W := by
          by_contra hge
          have : W * W ≤ (qm / W + hi) * W := Nat.mul_le_mul_right _ (by omega)
          have : (qm / W + hi) * W = W * (qm / W) + hi * W := by ring
          omega
        rw [addW_of_lt (a := hi) (by omega), addW_of_lt (by omega), Nat.add_zero]
      rw [e0, e1]; 
      have : (qm / W + hi) * W = W * (qm / W) + hi * W := by ring
      omega
    · have e0 : q0' = qm % W + lo - W := by
        show (qm % W + lo) % W = _
        rw [Nat.mod_eq_sub_mod (by omega), Nat.mod_eq_of_lt (by omega)]
      have hcc : q0' < lo := by omega
      have e1 : q1' = qm / W + hi + 1 := by
        simp only [q1', hcc, if_true]
        have h2 : qm / W + hi + 1 < W := by
          by_contra hge
          have : W * W ≤ (qm / W + hi + 1) * W := Nat.mul_le_mul_right _ (by omega)
          have : (qm / W + hi + 1) * W = W * (qm / W) + hi * W + W := by ring
          omega
        rw [addW_of_lt (a := hi) (by omega), addW_of_lt (by omega)]; omega
      rw [e0, e1]
      have : (qm / W + hi + 1) * W = W * (qm / W) + hi * W + W := by ring
      omega
  have hq0W : q0' < W := Nat.mod_lt _ hW
  have hq1W : q1' < W := Nat.mod_lt _ hW
  clear_value q0' q1'
  -- integer remainder estimate
  set R : ℤ := (hi * W + lo : ℤ) - (q1' + 1) * d with hR
  have hr : (r : ℤ) = R % W := by
    simp only [r]
    rw [subW_cast]
    unfold mulW addW
    push_cast
    rw [hR]
    have : ((hi : ℤ) * W + lo - (q1' + 1) * d) = lo - (q1' + 1) * d + hi * W := by ring
    rw [this, Int.add_mul_emod_self_right, Int.sub_emod, Int.emod_emod_of_dvd _ (dvd_refl _),
      Int.mul_emod, Int.emod_emod_of_dvd _ (dvd_refl _), ← Int.mul_emod, ← Int.sub_emod]
  have hrW : r < W := Nat.mod_lt _ hW
  clear_value r
  have hWpos : (0 : ℤ) < W := by exact_mod_cast hW
  have key : (W : ℤ) * R = hi * (W * W - (W + v) * d) + lo * (W - d) + q0' * d - W * d := by
    rw [hR]
    have : ((q1' : ℤ) * W + q0') = (W + v) * hi + lo := by exact_mod_cast hsum
    linear_combination (-(d : ℤ)) * this
  have hk1 : (1 : ℤ) ≤ W * W - (W + v) * d := by
    have : (((W + v) * d + 1 : Nat) : ℤ) ≤ ((W * W : Nat) : ℤ) := by
      exact_mod_cast (by have : 0 < W * W := Nat.mul_pos hW hW; omega)
    push_cast at this; linarith
  have hk2 : (W * W - (W + v) * d : ℤ) ≤ d := by
    have : ((W * W : Nat) : ℤ) ≤ (((W + v + 1) * d : Nat) : ℤ) := by
      exact_mod_cast (by omega)
    push_cast at this; linarith
  have zhi : (hi : ℤ) + 1 ≤ d := by exact_mod_cast hhi
  have zlo : (lo : ℤ) + 1 ≤ W := by exact_mod_cast hlo
  have zd : (d : ℤ) + 1 ≤ W := by exact_mod_cast hdW
  have zd2 : (W : ℤ) ≤ 2 * d := by exact_mod_cast hd
  have zq0 : (q0' : ℤ) + 1 ≤ W := by exact_mod_cast hq0W
  have zhi0 : (0 : ℤ) ≤ hi := by positivity
  have zlo0 : (0 : ℤ) ≤ lo := by positivity
  have zq00 : (0 : ℤ) ≤ q0' := by positivity
  have zd0 : (0 : ℤ) < d := by exact_mod_cast hd0
  set K : ℤ := W * W - (W + v) * d with hK
  clear_value K
  have lowA : -(d : ℤ) ≤ R := by
    have : (W : ℤ) * (-(d : ℤ)) ≤ W * R := by
      rw [key]; linarith [mul_nonneg zhi0 (by linarith : (0:ℤ) ≤ K), mul_nonneg zlo0 (by linarith : (0:ℤ) ≤ W - d), mul_nonneg zq00 zd0.le]
    exact le_of_mul_le_mul_left this hWpos
  have lowB : (q0' : ℤ) - W < R := by
    have : (W : ℤ) * ((q0' : ℤ) - W) < W * R := by
      rw [key]
      linarith [mul_nonneg zhi0 (by linarith : (0:ℤ) ≤ K), mul_nonneg zlo0 (by linarith : (0:ℤ) ≤ W - d),
        mul_pos (by linarith : (0:ℤ) < W - q0') (by linarith : (0:ℤ) < W - d)]
    exact lt_of_mul_lt_mul_left this hWpos.le
  have up : (W : ℤ) * R < (W - d) * (W - d) + q0' * d := by
    rw [key]
    have h1 : (hi : ℤ) * K ≤ (d - 1) * d := by
      apply mul_le_mul (by linarith) hk2 (by linarith) (by linarith)
    have h2 : (lo : ℤ) * (W - d) ≤ (W - 1) * (W - d) := by
      apply mul_le_mul_of_nonneg_right (by linarith) (by linarith)
    linarith
  have upM : R < W - d ∨ R < q0' := by
    by_contra hcon
    push Not at hcon
    obtain ⟨h1, h2⟩ := hcon
    have e1 := mul_le_mul_of_nonneg_left h1 (by linarith : (0:ℤ) ≤ W - d)
    have e2 := mul_le_mul_of_nonneg_right h2 zd0.le
    linarith
  -- final corrections
  have goalZ : ∀ t : Nat, t < d → ((t : ℤ) - (hi * W + lo : ℤ)) % d = 0 → t = (hi * W + lo) % d := by
    intro t ht hm
    have h1 : (d : ℤ) ∣ (t : ℤ) - ((hi * W + lo : Nat) : ℤ) := by
      push_cast; exact Int.dvd_of_emod_eq_zero hm
    have h2 : (hi * W + lo) ≡ t [MOD d] := (Nat.modEq_iff_dvd).2 h1
    have h3 := h2
    unfold Nat.ModEq at h3
    rw [h3, Nat.mod_eq_of_lt ht]
  have modR : ∀ c : ℤ, ((R + c * d) - (hi * W + lo : ℤ)) % d = 0 := by
    intro c
    rw [hR]
    apply Int.emod_eq_zero_of_dvd
    exact ⟨c - (q1' + 1), by ring⟩
  by_cases hneg : R < 0
  · have hr2 : (r : ℤ) = R + W := by
      rw [hr, ← Int.add_emod_right, Int.emod_eq_of_lt (by linarith) (by linarith)]
    have hgt : r > q0' := by zify; linarith
    have e' : r' = ((R + d).toNat) := by
      simp only [r', hgt, if_true]
      unfold addW
      zify
      rw [hr2, show R + (W : ℤ) + d = R + d + W by ring, Int.add_emod_right,
        Int.emod_eq_of_lt (by linarith) (by linarith), Int.toNat_of_nonneg (by linarith)]
    have hlt : r' < d := by rw [e']; zify; rw [Int.toNat_of_nonneg (by linarith)]; linarith
    simp only [show ¬ (r' ≥ d) by omega, if_false]
    apply goalZ _ hlt
    rw [e', Int.toNat_of_nonneg (by linarith)]
    have := modR 1; rwa [one_mul] at this
  · have hr2 : (r : ℤ) = R := by
      rw [hr, Int.emod_eq_of_lt (by linarith) (by rcases upM with h | h <;> linarith)]
    by_cases hgt : r > q0'
    · have hRq : (q0' : ℤ) < R := by rw [← hr2]; exact_mod_cast hgt
      have hRd : R < W - d := by rcases upM with h | h; exacts [h, by linarith]
      have e' : r' = r + d := by
        simp only [r', hgt, if_true]
        apply addW_of_lt; zify; linarith
      have hge : r' ≥ d := by omega
      simp only [hge, if_true]
      have hrd : r + d < W := by zify; linarith
      rw [subW_of_le (by omega) hge, e', Nat.add_sub_cancel]
      apply goalZ
      · zify; linarith
      · rw [hr2]; have := modR 0; rwa [zero_mul, add_zero] at this
    · have e' : r' = r := by simp only [r', hgt, if_false]
      rw [e']
      by_cases hge : r ≥ d
      · simp only [hge, if_true]
        rw [subW_of_le hrW hge]
        apply goalZ
        · omega
        · rw [Nat.cast_sub hge, hr2]; have := modR (-1); rwa [neg_one_mul, ← sub_eq_add_neg] at this
      · simp only [hge, if_false]
        apply goalZ _ (by omega)
        rw [hr2]; have := modR 0; rwa [zero_mul, add_zero] at this

theorem norm_spec (p : Nat) (hp : 0 < p) (hW : p < W) :
    W ≤ 2 * (p * 2 ^ clz p) ∧ p * 2 ^ clz p < W := by
  have h0 : p ≠ 0 := by omega
  have hl : Nat.log2 p < 64 := (Nat.log2_lt h0).2 (by rw [show (2:Nat) ^ 64 = W from rfl]; exact hW)
  have h1 : 2 ^ Nat.log2 p ≤ p := Nat.log2_self_le h0
  have h2 : p < 2 ^ (Nat.log2 p + 1) := Nat.lt_log2_self
  have h3 : (2:Nat) ^ 63 = 2 ^ Nat.log2 p * 2 ^ clz p := by
    rw [← pow_add]; congr 1; unfold clz; omega
  have h4 : W = 2 * 2 ^ 63 := by decide
  have h5 : (2:Nat) ^ (Nat.log2 p + 1) * 2 ^ clz p = W := by
    rw [pow_succ, mul_assoc, mul_comm 2, ← mul_assoc, ← h3, h4, mul_comm]
  constructor
  · rw [h4, h3]; exact Nat.mul_le_mul_left _ (Nat.mul_le_mul_right _ h1)
  · rw [← h5]; exact Nat.mul_lt_mul_of_pos_right h2 (by positivity)

theorem nmodMul_eq (p a b : Nat) (hp : 0 < p) (hW : p < W) (ha : a < p) (hb : b < W) :
    nmodMul p (preinvertLimb (shlW p (clz p))) (clz p) a b = (a * b) % p := by
  obtain ⟨h1, h2⟩ := norm_spec p hp hW
  have e1 : shlW p (clz p) = p * 2 ^ clz p := Nat.mod_eq_of_lt h2
  have hlt : a * 2 ^ clz p < p * 2 ^ clz p := Nat.mul_lt_mul_of_pos_right ha (by positivity)
  have e2 : shlW a (clz p) = a * 2 ^ clz p := Nat.mod_eq_of_lt (by omega)
  have hhi : a * 2 ^ clz p * b / W < p * 2 ^ clz p := by
    rw [Nat.div_lt_iff_lt_mul (by decide)]
    calc a * 2 ^ clz p * b ≤ a * 2 ^ clz p * W := Nat.mul_le_mul_left _ hb.le
      _ < p * 2 ^ clz p * W := Nat.mul_lt_mul_of_pos_right hlt (by decide)
  have := barrett_core (p * 2 ^ clz p) (a * 2 ^ clz p * b / W) (a * 2 ^ clz p * b % W) h1 h2 hhi
    (Nat.mod_lt _ (by decide))
  unfold nmodMul
  rw [e1, e2]
  simp only at this ⊢
  rw [this]
  have e3 : a * 2 ^ clz p * b / W * W + a * 2 ^ clz p * b % W = a * b * 2 ^ clz p := by
    rw [mul_comm (_ / W), Nat.div_add_mod]; ring
  rw [e3, Nat.mul_mod_mul_right, Nat.mul_div_cancel _ (by positivity)]

theorem invLoop_spec (p i : Nat) (hp : 2 ≤ p) (hpW : p < W) (b : Nat) :
    ∀ a s1 s2 : Nat, 0 < b → s1 < p → s2 < p → ((s1 : ZMod p) * i = a) → ((s2 : ZMod p) * i = b) →
      invLoop p a b s1 s2 < p ∧ ((invLoop p a b s1 s2 : ZMod p) * i = (Nat.gcd a b : Nat)) := by
  induction b using Nat.strong_induction_on with
  | _ b ih =>
    intro a s1 s2 hb h1 h2 e1 e2
    rw [invLoop]
    have hb0 : b ≠ 0 := by omega
    simp only [hb0, dite_false]
    by_cases hz : a % b = 0
    · simp only [hz, if_true]
      refine ⟨h2, ?_⟩
      rw [e2, Nat.gcd_comm, Nat.gcd_rec, hz, Nat.gcd_zero_left]
    · simp only [hz, if_false]
      have hsq : (s2 * (a / b)) % p < p := Nat.mod_lt _ (by omega)
      have hsqW : (s2 * (a / b)) % p % W = (s2 * (a / b)) % p := Nat.mod_eq_of_lt (by omega)
      rw [hsqW]
      set sq := (s2 * (a / b)) % p with hsqd
      have csq : (sq : ZMod p) = s2 * (a / b : Nat) := by
        rw [hsqd, ZMod.natCast_mod]; push_cast; rfl
      have hs3 : ∃ s3, (if s1 ≥ sq then subW s1 sq else addW (subW p sq) s1) = s3 ∧ s3 < p ∧
          (s3 : ZMod p) = s1 - sq := by
        refine ⟨_, rfl, ?_⟩
        by_cases hge : s1 ≥ sq
        · simp only [hge, if_true]
          rw [subW_of_le (by omega) hge]
          exact ⟨by omega, by rw [Nat.cast_sub hge]⟩
        · simp only [hge, if_false]
          rw [subW_of_le hpW hsq.le, addW_of_lt (by omega)]
          refine ⟨by omega, ?_⟩
          rw [Nat.cast_add, Nat.cast_sub hsq.le]; simp; ring
      obtain ⟨s3, es3, hs3p, cs3⟩ := hs3
      rw [es3]
      have hlt : a % b < b := Nat.mod_lt _ hb
      have e3 : (s3 : ZMod p) * i = (a % b : Nat) := by
        have hdm : (a : ZMod p) = (b : ZMod p) * (a / b : Nat) + (a % b : Nat) := by
          conv_lhs => rw [← Nat.div_add_mod a b]
          push_cast; rfl
        rw [cs3, csq]
        linear_combination e1 - (((a / b : Nat)) : ZMod p) * e2 + hdm
      have := ih (a % b) hlt b s2 s3 (by omega) h2 hs3p e2 e3
      refine ⟨this.1, ?_⟩
      rw [this.2, Nat.gcd_comm b, ← Nat.gcd_rec, Nat.gcd_comm]

theorem invPrime_spec (p i : Nat) (hp : 2 ≤ p) (hpW : p < W) (hi : i ≠ 0) (hc : Nat.Coprime i p) :
    ∃ r, invPrime i p = .ok r ∧ r < p ∧ (r : ZMod p) * i = 1 := by
  refine ⟨invLoop p p i 0 1, ?_, ?_⟩
  · unfold invPrime; rw [if_neg]; omega
  · have := invLoop_spec p i hp hpW i p 0 1 (by omega) (by omega) (by omega) (by simp) (by simp)
    refine ⟨this.1, ?_⟩
    rw [this.2, Nat.gcd_comm, hc.gcd_eq_one]; simp

end CLPoly
