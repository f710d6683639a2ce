import Verif.Dense.Defs
import Verif.Num.ZpLemmas

/-! Word-level arithmetic of `dense_upoly_zp`: modular addition/subtraction, three-word accumulation and its reduction. -/

namespace CLPoly
namespace Dense

theorem W_pos : 0 < W := by decide

theorem precompute_p (p : Nat) : (precompute p).p = p := rfl
theorem precompute_norm {p : Nat} (hp : 0 < p) : (precompute p).norm = clz p := by
  unfold precompute Zp.precompute; rw [if_neg (by omega)]
theorem precompute_ninv {p : Nat} (hp : 0 < p) : (precompute p).ninv = preinvertLimb (shlW p (clz p)) := by
  unfold precompute Zp.precompute; rw [if_neg (by omega)]

theorem nmodAdd_spec {p a b : Nat} (hW : p < W) (ha : a < p) (hb : b < p) :
    nmodAdd (precompute p) a b < p ∧ ((nmodAdd (precompute p) a b : Nat) : ZMod p) = a + b := by
  unfold nmodAdd
  rw [precompute_p, subW_of_le hW ha.le]
  by_cases h : p - a > b
  · simp only [h, if_true]
    rw [addW_of_lt (by omega)]
    exact ⟨by omega, by push_cast; rfl⟩
  · simp only [h, if_false]
    rw [subW_of_le (by omega) (by omega)]
    refine ⟨by omega, ?_⟩
    rw [Nat.cast_sub (by omega), Nat.cast_sub ha.le]; simp; ring

theorem nmodSub_spec {p a b : Nat} (hW : p < W) (ha : a < p) (hb : b < p) :
    nmodSub (precompute p) a b < p ∧ ((nmodSub (precompute p) a b : Nat) : ZMod p) = a - b := by
  unfold nmodSub
  rw [precompute_p]
  by_cases h : a ≥ b
  · simp only [h, if_true]
    rw [subW_of_le (by omega) h]
    exact ⟨by omega, by rw [Nat.cast_sub h]⟩
  · simp only [h, if_false]
    rw [subW_of_le hW hb.le, addW_of_lt (by omega)]
    refine ⟨by omega, ?_⟩
    rw [Nat.cast_add, Nat.cast_sub hb.le]; simp; ring

theorem nmodMul_spec {p a b : Nat} (h0 : 0 < p) (hW : p < W) (ha : a < p) (hb : b < p) :
    nmodMul (precompute p) a b < p ∧ ((nmodMul (precompute p) a b : Nat) : ZMod p) = a * b := by
  unfold nmodMul
  rw [precompute_ninv h0, precompute_norm h0, precompute_p, nmodMul_eq p a b h0 hW ha (by omega)]
  exact ⟨Nat.mod_lt _ h0, by rw [ZMod.natCast_mod]; push_cast; rfl⟩

theorem nmodInv_spec {p a : Nat} (hp : p.Prime) (hW : p < W) (ha : a < p) (h0 : a ≠ 0) :
    nmodInv (precompute p) a < p ∧ ((nmodInv (precompute p) a : Nat) : ZMod p) * a = 1 := by
  have hc : Nat.Coprime a p := (Nat.coprime_comm.1 ((Nat.Prime.coprime_iff_not_dvd hp).2 fun h => by
    have := Nat.le_of_dvd (by omega) h; omega))
  obtain ⟨r, e, h1, h2⟩ := invPrime_spec p a hp.two_le hW h0 hc
  unfold nmodInv
  rw [precompute_p, e]
  exact ⟨h1, h2⟩

/-! ### accumulators -/

/-- the number held by a three-word accumulator -/
def Word3.val (w : Word3) : Nat := w.hi * (W * W) + w.mid * W + w.lo

/-- all three words are words -/
structure Word3.OK (w : Word3) : Prop where
  lo : w.lo < W
  mid : w.mid < W
  hi : w.hi < W

theorem Word3.ok_zero : (⟨0, 0, 0⟩ : Word3).OK := ⟨by decide, by decide, by decide⟩

theorem addCarry3_spec {s : Word3} (hs : s.OK) {b1 b0 : Nat} (h1 : b1 < W) (h0 : b0 < W) (hv : s.val + (b1 * W + b0) < W * (W * W)) :
    (addCarry3 s b1 b0).OK ∧ (addCarry3 s b1 b0).val = s.val + (b1 * W + b0) := by
  unfold addCarry3 Word3.val at *
  have hWp := W_pos
  obtain ⟨l1, m1, u1⟩ := hs
  have e1 := Nat.div_add_mod (s.lo + b0) W
  have e2 := Nat.div_add_mod (s.mid + b1 + (s.lo + b0) / W) W
  obtain ⟨c1, hc1⟩ : ∃ c, c = (s.lo + b0) / W := ⟨_, rfl⟩
  obtain ⟨r1, hr1⟩ : ∃ c, c = (s.lo + b0) % W := ⟨_, rfl⟩
  have hr1W : r1 < W := by rw [hr1]; exact Nat.mod_lt _ hWp
  obtain ⟨c2, hc2⟩ : ∃ c, c = (s.mid + b1 + (s.lo + b0) / W) / W := ⟨_, rfl⟩
  obtain ⟨r2, hr2⟩ : ∃ c, c = (s.mid + b1 + (s.lo + b0) / W) % W := ⟨_, rfl⟩
  have hr2W : r2 < W := by rw [hr2]; exact Nat.mod_lt _ hWp
  dsimp only
  rw [← hc2, ← hr2, ← hc1] at e2
  rw [← hc1, ← hr1] at e1
  rw [← hc1] at hc2 hr2
  rw [← hr1, ← hc1, ← hr2, ← hc2]
  have key : (s.hi + c2) * (W * W) + r2 * W + r1 = s.hi * (W * W) + s.mid * W + s.lo + (b1 * W + b0) := by
    linear_combination (W : ℕ) * e2 + e1
  have hlt : s.hi + c2 < W := by
    by_contra hge
    have : W * (W * W) ≤ (s.hi + c2) * (W * W) := Nat.mul_le_mul_right _ (by omega)
    omega
  rw [addW_of_lt hlt]
  exact ⟨⟨hr1W, hr2W, hlt⟩, key⟩

theorem umul128_spec {a b : Nat} (ha : a < W) (hb : b < W) :
    (umul128 a b).1 < W ∧ (umul128 a b).2 < W ∧ (umul128 a b).1 * W + (umul128 a b).2 = a * b := by
  unfold umul128
  refine ⟨?_, Nat.mod_lt _ W_pos, ?_⟩
  · rw [Nat.div_lt_iff_lt_mul W_pos]
    calc a * b ≤ a * W := Nat.mul_le_mul_left _ hb.le
      _ < W * W := Nat.mul_lt_mul_of_pos_right ha W_pos
  · dsimp only; rw [mul_comm]; exact Nat.div_add_mod _ _

/-- one multiply-accumulate step -/
theorem mac_spec {s : Word3} (hs : s.OK) {a b : Nat} (ha : a < W) (hb : b < W) (hv : s.val + a * b < W * (W * W)) :
    (addCarry3 s (umul128 a b).1 (umul128 a b).2).OK ∧ (addCarry3 s (umul128 a b).1 (umul128 a b).2).val = s.val + a * b := by
  obtain ⟨h1, h2, h3⟩ := umul128_spec ha hb
  have := addCarry3_spec hs h1 h2 (by rw [h3]; exact hv)
  rwa [h3] at this

/-! ### reduction -/

theorem llStep_spec {p h l : Nat} (h0 : 0 < p) (hW : p < W) (hh : h < p) (hl : l < W) :
    llStep h l (precompute p) = (h * W + l) % p := by
  obtain ⟨n1, n2⟩ := norm_spec p h0 hW
  have e1 : shlW p (clz p) = p * 2 ^ clz p := Nat.mod_eq_of_lt n2
  have hc64 : clz p ≤ 63 := by unfold clz; omega
  have hlt : h * 2 ^ clz p < p * 2 ^ clz p := Nat.mul_lt_mul_of_pos_right hh (by positivity)
  have e2 : shlW h (clz p) = h * 2 ^ clz p := Nat.mod_eq_of_lt (by omega)
  have W64 : W = 2 ^ clz p * 2 ^ (64 - clz p) := by
    rw [← pow_add, show clz p + (64 - clz p) = 64 by omega]; rfl
  have hdl : l / 2 ^ (64 - clz p) < 2 ^ clz p := by
    rw [Nat.div_lt_iff_lt_mul (by positivity), ← W64]; exact hl
  -- the shifted high word
  have hs : (if clz p > 0 then shlW h (clz p) ||| l / 2 ^ (64 - clz p) else shlW h (clz p)) =
      h * 2 ^ clz p + l / 2 ^ (64 - clz p) := by
    rw [e2]
    by_cases hz : clz p > 0
    · rw [if_pos hz, mul_comm h, ← Nat.two_pow_add_eq_or_of_lt hdl]
    · rw [if_neg hz]
      have : clz p = 0 := by omega
      rw [this, Nat.div_eq_of_lt (by simpa [W] using hl)]; omega
  have hms : shlW l (clz p) = l % 2 ^ (64 - clz p) * 2 ^ clz p := by
    unfold shlW
    rw [show W = 2 ^ (64 - clz p) * 2 ^ clz p by rw [mul_comm]; exact W64, Nat.mul_mod_mul_right]
  have hhs : h * 2 ^ clz p + l / 2 ^ (64 - clz p) < p * 2 ^ clz p := by
    have : (h + 1) * 2 ^ clz p ≤ p * 2 ^ clz p := Nat.mul_le_mul_right _ hh
    rw [Nat.add_mul] at this; omega
  have hmsW : shlW l (clz p) < W := Nat.mod_lt _ W_pos
  have hval : (h * 2 ^ clz p + l / 2 ^ (64 - clz p)) * W + shlW l (clz p) = (h * W + l) * 2 ^ clz p := by
    rw [hms]
    have := Nat.div_add_mod l (2 ^ (64 - clz p))
    conv_rhs => rw [← this]
    conv_lhs => rw [Nat.add_mul]
    rw [Nat.add_mul (h * W)]
    have e : l / 2 ^ (64 - clz p) * W = 2 ^ (64 - clz p) * (l / 2 ^ (64 - clz p)) * 2 ^ clz p := by
      rw [W64]; ring
    rw [e]; ring
  have := barrett_core (p * 2 ^ clz p) (h * 2 ^ clz p + l / 2 ^ (64 - clz p)) (shlW l (clz p)) n1 n2 hhs hmsW
  unfold llStep
  rw [precompute_ninv h0, precompute_norm h0, precompute_p, hs, e1]
  simp only at this ⊢
  rw [this, hval, Nat.mul_mod_mul_right, Nat.mul_div_cancel _ (by positivity)]

/-- `_lll_mod_preinv` reduces the accumulator as long as its top word is below the modulus -/
theorem lllMod_spec {p : Nat} {w : Word3} (h0 : 0 < p) (hW : p < W) (hw : w.OK) (hh : w.hi < p) :
    lllMod w (precompute p) = w.val % p := by
  unfold lllMod
  rw [llStep_spec h0 hW hh hw.mid, llStep_spec h0 hW (Nat.mod_lt _ h0) hw.lo]
  unfold Word3.val
  have e : w.hi * (W * W) + w.mid * W + w.lo = (w.hi * W + w.mid) * W + w.lo := by ring
  rw [e]
  exact Nat.ModEq.add_right _ (Nat.ModEq.mul_right _ (Nat.mod_modEq _ _))

theorem hi_lt {p : Nat} {w : Word3} (hv : w.val < p * (W * W)) : w.hi < p := by
  by_contra hge
  have : p * (W * W) ≤ w.hi * (W * W) := Nat.mul_le_mul_right _ (by omega)
  unfold Word3.val at hv; omega

theorem lllMod_spec' {p : Nat} {w : Word3} (h0 : 0 < p) (hW : p < W) (hw : w.OK) (hv : w.val < p * (W * W)) :
    lllMod w (precompute p) < p ∧ ((lllMod w (precompute p) : Nat) : ZMod p) = w.val := by
  rw [lllMod_spec h0 hW hw (hi_lt hv)]
  exact ⟨Nat.mod_lt _ h0, by rw [ZMod.natCast_mod]⟩

end Dense
end CLPoly
