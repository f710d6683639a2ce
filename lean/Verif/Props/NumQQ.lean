import Verif.Num.QQ
import Verif.Props.NumZZ
import Mathlib.Data.Rat.Lemmas
import Mathlib.Algebra.Order.Field.Rat
import Mathlib.Tactic.FieldSimp
import Mathlib.Tactic.Positivity
import Mathlib.Tactic.Linarith
import Mathlib.RingTheory.Coprime.Lemmas
import Mathlib.RingTheory.Int.Basic

/-!
# Property C06: `QQ` is exact and canonical

`QQ.toRat q` is the rational number an object denotes; `QQ.Canon q` says that numerator and
denominator are canonical `ZZ` objects, coprime, and the denominator is positive.
-/

namespace CLPoly
namespace QQ
open ZZ

/-- the rational number denoted by a `QQ` -/
def toRat (q : QQ) : ℚ := (q.num.val : ℚ) / (q.den.val : ℚ)

/-- lowest terms, positive denominator, canonical parts -/
def Canon (q : QQ) : Prop :=
  q.num.Canon ∧ q.den.Canon ∧ 0 < q.den.val ∧ Int.gcd q.num.val q.den.val = 1

/-- the operation returned normally with a canonical object denoting `v` -/
def Exact (o : Out QQ) (v : ℚ) : Prop := ∃ r, o = .ok r ∧ r.Canon ∧ r.toRat = v

theorem sgn_eq (a : ZZ) (ha : a.Canon) : ZZ.sgn a = a.val.sign := (C02_ZZ_compare a a ha ha).2.2.2

theorem neg_spec (a : ZZ) (ha : a.Canon) : (ZZ.neg a).Canon ∧ (ZZ.neg a).val = -a.val := by
  obtain ⟨r, h, h1, h2⟩ := C01_ZZ_neg a ha; cases h; exact ⟨h1, h2⟩
theorem mul_spec (a b : ZZ) (ha : a.Canon) (hb : b.Canon) :
    (ZZ.mul a b).Canon ∧ (ZZ.mul a b).val = a.val * b.val := by
  obtain ⟨r, h, h1, h2⟩ := C01_ZZ_mul a b ha hb; cases h; exact ⟨h1, h2⟩
theorem abs_spec (a : ZZ) (ha : a.Canon) : (ZZ.abs a).Canon ∧ (ZZ.abs a).val = |a.val| := by
  obtain ⟨r, h, h1, h2⟩ := C04_ZZ_abs a ha; cases h; exact ⟨h1, h2⟩
theorem pow_spec (a : ZZ) (n : Nat) (ha : a.Canon) :
    (ZZ.pow a n).Canon ∧ (ZZ.pow a n).val = a.val ^ n := by
  obtain ⟨r, h, h1, h2⟩ := C04_ZZ_pow a n ha; cases h; exact ⟨h1, h2⟩

theorem canonicalize_spec (q : QQ) (hn : q.num.Canon) (hd : q.den.Canon) (h0 : q.den.val ≠ 0) :
    Exact (canonicalize q) (q.num.val / q.den.val : ℚ) := by
  unfold canonicalize
  by_cases hz : q.num.val = 0
  · simp only [hz, if_true]
    exact ⟨_, rfl, ⟨hn, (by decide : (small 1).Canon), (by decide : (0:Int) < 1), by simp [hz]⟩,
      by simp [toRat, hz]⟩
  simp only [hz, if_false]
  -- numerator/denominator with the sign moved to the numerator
  obtain ⟨n, d, hnn, hdd, hnc, hdc, hd0, hv, hnz⟩ : ∃ n d : ZZ,
      n = (if ZZ.sgn q.den < 0 then ZZ.neg q.num else q.num) ∧
      d = (if ZZ.sgn q.den < 0 then ZZ.neg q.den else q.den) ∧
      n.Canon ∧ d.Canon ∧ 0 < d.val ∧
      (n.val / d.val : ℚ) = (q.num.val / q.den.val : ℚ) ∧ n.val ≠ 0 := by
    refine ⟨_, _, rfl, rfl, ?_⟩
    rw [sgn_eq _ hd]
    obtain ⟨c1, v1⟩ := neg_spec _ hn
    obtain ⟨c2, v2⟩ := neg_spec _ hd
    by_cases hs : q.den.val < 0
    · have : q.den.val.sign < 0 := by simpa [Int.sign_neg_iff] using hs
      simp only [this, if_true]
      refine ⟨c1, c2, by omega, ?_, by omega⟩
      rw [v1, v2]; push_cast; rw [neg_div_neg_eq]
    · have : ¬ q.den.val.sign < 0 := by simpa [Int.sign_neg_iff] using hs
      simp only [this, if_false]
      exact ⟨hn, hd, by omega, trivial, hz⟩
  rw [← hnn, ← hdd]
  obtain ⟨ac, av⟩ := abs_spec _ hnc
  have hg := C04_ZZ_gcd_partial (ZZ.abs n) d ac hdc
  have hne : ZZ.gcd (ZZ.abs n) d ≠ .ub := by
    intro h
    rcases hg.1.1 h with ⟨h, -⟩ | ⟨h, -⟩
    · rw [h] at av; simp only [val_small, i64min] at av
      have := abs_nonneg n.val; omega
    · rw [h] at hd0; simp only [val_small, i64min] at hd0; omega
  obtain ⟨g, hge, hgc, hgv⟩ := hg.2 hne
  rw [hge]; simp only [Out.bind_ok]
  have hgv' : g.val = (Int.gcd n.val d.val : Int) := by
    rw [hgv, av]; simp [Int.gcd, Int.natAbs_abs]
  have hgpos : 0 < g.val := by
    rw [hgv']; exact_mod_cast Int.gcd_pos_of_ne_zero_left _ hnz
  by_cases h1 : g.val = 1
  · simp only [h1, if_true, Out.pure_eq]
    refine ⟨_, rfl, ⟨hnc, hdc, hd0, ?_⟩, hv⟩
    rw [hgv'] at h1; exact_mod_cast h1
  · simp only [h1, if_false]
    obtain ⟨n', e1, c1, v1⟩ := C03_ZZ_div n g hnc hgc hgpos.ne'
    obtain ⟨d', e2, c2, v2⟩ := C03_ZZ_div d g hdc hgc hgpos.ne'
    rw [e1, e2]; simp only [Out.bind_ok, Out.pure_eq]
    have dn : g.val ∣ n.val := by rw [hgv']; exact Int.gcd_dvd_left ..
    have dd : g.val ∣ d.val := by rw [hgv']; exact Int.gcd_dvd_right ..
    have hn' : n.val = g.val * n'.val := by rw [v1]; exact (Int.mul_tdiv_cancel' dn).symm
    have hd' : d.val = g.val * d'.val := by rw [v2]; exact (Int.mul_tdiv_cancel' dd).symm
    have hd'0 : 0 < d'.val := by
      rw [hd'] at hd0; exact (pos_iff_pos_of_mul_pos hd0).1 hgpos
    refine ⟨_, rfl, ⟨c1, c2, hd'0, ?_⟩, ?_⟩
    · have : Int.gcd n.val d.val = g.val.natAbs * Int.gcd n'.val d'.val := by
        rw [hn', hd', Int.gcd_mul_left]
      have h2 : (Int.gcd n.val d.val : Int).natAbs = g.val.natAbs := by rw [hgv']
      rw [Int.natAbs_natCast] at h2
      rw [this] at h2
      have h3 : 0 < g.val.natAbs := Int.natAbs_pos.2 hgpos.ne'
      exact Nat.eq_of_mul_eq_mul_left h3 (by rw [mul_one]; exact h2)
    · rw [← hv]; unfold toRat
      rw [hn', hd']; push_cast
      have : (g.val : ℚ) ≠ 0 := by exact_mod_cast hgpos.ne'
      rw [mul_div_mul_left _ _ this]

theorem Canon.den_ne {q : QQ} (h : q.Canon) : (q.den.val : ℚ) ≠ 0 := by
  exact_mod_cast h.2.2.1.ne'

end QQ

open QQ ZZ

/-- Constructing from numerator and denominator: throws exactly on a zero denominator, otherwise the
result is canonical and denotes the quotient. -/
theorem C06_QQ_construct (n d : ZZ) (hn : n.Canon) (hd : d.Canon) :
    (QQ.mk' n d = .throws ↔ d.val = 0) ∧
    (d.val ≠ 0 → QQ.Exact (QQ.mk' n d) (n.val / d.val : ℚ)) := by
  unfold QQ.mk'
  by_cases h : d.val = 0
  · simp [h]
  · have := QQ.canonicalize_spec ⟨n, d⟩ hn hd h
    simp only [h, if_false, iff_false]
    exact ⟨by obtain ⟨r, hr, -⟩ := this; simp [hr], fun _ => this⟩

theorem C06_QQ_ofZZ (n : ZZ) (hn : n.Canon) : QQ.Exact (.ok (QQ.ofZZ n)) (n.val : ℚ) :=
  ⟨_, rfl, ⟨hn, by simp [QQ.ofZZ]; decide, by simp [QQ.ofZZ], by simp [QQ.ofZZ]⟩, by
    simp [QQ.ofZZ, QQ.toRat]⟩

theorem C06_QQ_mul (a b : QQ) (ha : a.Canon) (hb : b.Canon) :
    QQ.Exact (QQ.mul a b) (a.toRat * b.toRat) := by
  unfold QQ.mul
  obtain ⟨c1, v1⟩ := QQ.mul_spec _ _ ha.1 hb.1
  obtain ⟨c2, v2⟩ := QQ.mul_spec _ _ ha.2.1 hb.2.1
  have := QQ.canonicalize_spec ⟨ZZ.mul a.num b.num, ZZ.mul a.den b.den⟩ c1 c2
    (by simp only [v2]; exact mul_ne_zero ha.2.2.1.ne' hb.2.2.1.ne')
  simp only [v1, v2] at this
  unfold toRat
  rwa [div_mul_div_comm, ← Int.cast_mul, ← Int.cast_mul]

/-- Division: throws exactly when the divisor is zero, otherwise exact. -/
theorem C06_QQ_div (a b : QQ) (ha : a.Canon) (hb : b.Canon) :
    (QQ.div a b = .throws ↔ b.toRat = 0) ∧
    (b.toRat ≠ 0 → QQ.Exact (QQ.div a b) (a.toRat / b.toRat)) := by
  have hz : b.toRat = 0 ↔ b.num.val = 0 := by
    unfold toRat; rw [div_eq_zero_iff]; simp [hb.2.2.1.ne']
  simp only [ne_eq, hz]
  unfold QQ.div
  by_cases h : b.num.val = 0
  · simp [h]
  obtain ⟨c1, v1⟩ := QQ.mul_spec _ _ ha.1 hb.2.1
  obtain ⟨c2, v2⟩ := QQ.mul_spec _ _ ha.2.1 hb.1
  have := QQ.canonicalize_spec ⟨ZZ.mul a.num b.den, ZZ.mul a.den b.num⟩ c1 c2
    (by simp only [v2]; exact mul_ne_zero ha.2.2.1.ne' h)
  simp only [v1, v2] at this
  simp only [h, if_false, iff_false]
  refine ⟨by obtain ⟨r, hr, -⟩ := this; simp [hr], fun _ => ?_⟩
  unfold toRat
  rwa [div_div_div_eq, ← Int.cast_mul, ← Int.cast_mul]

/-- `QQ` operand pairs for which `operator+` reaches the undefined case of integer addition. -/
def QAddUB (a b : QQ) : Prop := AddUB (ZZ.mul a.num b.den) (ZZ.mul b.num a.den)
/-- likewise for `operator-` -/
def QSubUB (a b : QQ) : Prop := SubUB (ZZ.mul a.num b.den) (ZZ.mul b.num a.den)

/-- Addition: exact and canonical except on the operand pairs where the integer addition of the two
cross products is undefined (missing part of the full property: those pairs). -/
theorem C06_QQ_add_partial (a b : QQ) (ha : a.Canon) (hb : b.Canon) :
    (QQ.add a b = .ub ↔ QAddUB a b) ∧ (¬ QAddUB a b → QQ.Exact (QQ.add a b) (a.toRat + b.toRat)) := by
  obtain ⟨c1, v1⟩ := QQ.mul_spec _ _ ha.1 hb.2.1
  obtain ⟨c2, v2⟩ := QQ.mul_spec _ _ hb.1 ha.2.1
  obtain ⟨c3, v3⟩ := QQ.mul_spec _ _ ha.2.1 hb.2.1
  have hadd := C01_ZZ_add_partial _ _ c1 c2
  unfold QQ.add QAddUB
  by_cases hu : AddUB (ZZ.mul a.num b.den) (ZZ.mul b.num a.den)
  · simp [hadd.1.2 hu, hu]
  · obtain ⟨n, e, cn, vn⟩ := hadd.2 hu
    have := QQ.canonicalize_spec ⟨n, ZZ.mul a.den b.den⟩ cn c3
      (by simp only [v3]; exact mul_ne_zero ha.2.2.1.ne' hb.2.2.1.ne')
    rw [e]; simp only [Out.bind_ok, hu, iff_false]
    refine ⟨by obtain ⟨r, hr, -⟩ := this; simp [hr], fun _ => ?_⟩
    simp only [vn, v1, v2, v3] at this
    unfold toRat
    rw [div_add_div _ _ ha.den_ne hb.den_ne]
    convert this using 1
    push_cast; ring_nf

theorem C06_QQ_sub_partial (a b : QQ) (ha : a.Canon) (hb : b.Canon) :
    (QQ.sub a b = .ub ↔ QSubUB a b) ∧ (¬ QSubUB a b → QQ.Exact (QQ.sub a b) (a.toRat - b.toRat)) := by
  obtain ⟨c1, v1⟩ := QQ.mul_spec _ _ ha.1 hb.2.1
  obtain ⟨c2, v2⟩ := QQ.mul_spec _ _ hb.1 ha.2.1
  obtain ⟨c3, v3⟩ := QQ.mul_spec _ _ ha.2.1 hb.2.1
  have hadd := C01_ZZ_sub_partial _ _ c1 c2
  unfold QQ.sub QSubUB
  by_cases hu : SubUB (ZZ.mul a.num b.den) (ZZ.mul b.num a.den)
  · simp [hadd.1.2 hu, hu]
  · obtain ⟨n, e, cn, vn⟩ := hadd.2 hu
    have := QQ.canonicalize_spec ⟨n, ZZ.mul a.den b.den⟩ cn c3
      (by simp only [v3]; exact mul_ne_zero ha.2.2.1.ne' hb.2.2.1.ne')
    rw [e]; simp only [Out.bind_ok, hu, iff_false]
    refine ⟨by obtain ⟨r, hr, -⟩ := this; simp [hr], fun _ => ?_⟩
    simp only [vn, v1, v2, v3] at this
    unfold toRat
    rw [div_sub_div _ _ ha.den_ne hb.den_ne]
    convert this using 1
    push_cast; ring_nf

theorem C06_QQ_neg (a : QQ) (ha : a.Canon) : QQ.Exact (.ok (QQ.neg a)) (-a.toRat) := by
  obtain ⟨c1, v1⟩ := QQ.neg_spec _ ha.1
  refine ⟨_, rfl, ⟨c1, ha.2.1, ha.2.2.1, ?_⟩, ?_⟩
  · simp only [QQ.neg, v1, Int.neg_gcd]; exact ha.2.2.2
  · simp only [QQ.toRat, QQ.neg, v1]; push_cast; ring

theorem C06_QQ_abs (a : QQ) (ha : a.Canon) : QQ.Exact (.ok (QQ.abs a)) |a.toRat| := by
  obtain ⟨c1, v1⟩ := QQ.abs_spec _ ha.1
  refine ⟨_, rfl, ⟨c1, ha.2.1, ha.2.2.1, ?_⟩, ?_⟩
  · simp only [QQ.abs, v1, Int.gcd, Int.natAbs_abs]; exact ha.2.2.2
  · simp only [QQ.toRat, QQ.abs, v1]
    rw [abs_div, abs_of_pos (a := (a.den.val : ℚ)) (by exact_mod_cast ha.2.2.1)]; push_cast; rfl

theorem C06_QQ_pow (a : QQ) (n : Nat) (ha : a.Canon) : QQ.Exact (.ok (QQ.pow a n)) (a.toRat ^ n) := by
  obtain ⟨c1, v1⟩ := QQ.pow_spec _ n ha.1
  obtain ⟨c2, v2⟩ := QQ.pow_spec _ n ha.2.1
  refine ⟨_, rfl, ⟨c1, c2, ?_, ?_⟩, ?_⟩
  · simp only [QQ.pow, v2]; exact pow_pos ha.2.2.1 n
  · simp only [QQ.pow, v1, v2]
    exact Int.isCoprime_iff_gcd_eq_one.1 ((Int.isCoprime_iff_gcd_eq_one.2 ha.2.2.2).pow)
  · simp only [QQ.toRat, QQ.pow, v1, v2]; push_cast; rw [div_pow]

/-- Comparison, hashing and sign agree with the rational order. -/
theorem C06_QQ_compare (a b : QQ) (ha : a.Canon) (hb : b.Canon) :
    (QQ.beq a b = true ↔ a.toRat = b.toRat) ∧ (QQ.blt a b = true ↔ a.toRat < b.toRat) ∧
    (∀ hs hb' mix, a.toRat = b.toRat → QQ.hash hs hb' mix a = QQ.hash hs hb' mix b) ∧
    (QQ.sgn a < 0 ↔ a.toRat < 0) ∧ (QQ.sgn a = 0 ↔ a.toRat = 0) ∧ (0 < QQ.sgn a ↔ 0 < a.toRat) := by
  have hda : (0 : ℚ) < a.den.val := by exact_mod_cast ha.2.2.1
  have hdb : (0 : ℚ) < b.den.val := by exact_mod_cast hb.2.2.1
  have key : a.toRat = b.toRat → a = b := by
    intro h
    unfold toRat at h
    rw [div_eq_div_iff hda.ne' hdb.ne'] at h
    have h' : a.num.val * b.den.val = b.num.val * a.den.val := by exact_mod_cast h
    have cab : IsCoprime a.den.val a.num.val := (Int.isCoprime_iff_gcd_eq_one.2 ha.2.2.2).symm
    have cba : IsCoprime b.den.val b.num.val := (Int.isCoprime_iff_gcd_eq_one.2 hb.2.2.2).symm
    have d1 : a.den.val ∣ b.den.val :=
      cab.dvd_of_dvd_mul_left (show a.den.val ∣ a.num.val * b.den.val from h' ▸ Dvd.intro_left _ rfl)
    have d2 : b.den.val ∣ a.den.val :=
      cba.dvd_of_dvd_mul_left (show b.den.val ∣ b.num.val * a.den.val from h' ▸ Dvd.intro_left _ rfl)
    have hden : a.den.val = b.den.val := Int.dvd_antisymm ha.2.2.1.le hb.2.2.1.le d1 d2
    have hnum : a.num.val = b.num.val := by
      rw [hden] at h'; exact mul_right_cancel₀ hb.2.2.1.ne' h'
    cases a; cases b; simp only [QQ.mk.injEq]
    exact ⟨canon_ext ha.1 hb.1 hnum, canon_ext ha.2.1 hb.2.1 hden⟩
  have hsgn : QQ.sgn a = a.num.val.sign := QQ.sgn_eq _ ha.1
  refine ⟨?_, ?_, ?_, ?_, ?_, ?_⟩
  · unfold QQ.beq
    rw [Bool.and_eq_true, (C02_ZZ_compare _ _ ha.1 hb.1).1, (C02_ZZ_compare _ _ ha.2.1 hb.2.1).1]
    constructor
    · rintro ⟨h1, h2⟩; unfold toRat; rw [h1, h2]
    · intro h; rw [key h]; exact ⟨rfl, rfl⟩
  · unfold QQ.blt
    obtain ⟨c1, v1⟩ := QQ.mul_spec _ _ ha.1 hb.2.1
    obtain ⟨c2, v2⟩ := QQ.mul_spec _ _ hb.1 ha.2.1
    rw [(C02_ZZ_compare _ _ c1 c2).2.1, v1, v2]
    unfold toRat
    rw [div_lt_div_iff₀ hda hdb]
    exact_mod_cast Iff.rfl
  · intro hs hb' mix h; rw [key h]
  · rw [hsgn, Int.sign_neg_iff]; unfold toRat; rw [div_lt_iff₀ hda]; simp
  · rw [hsgn, Int.sign_eq_zero_iff_zero]; unfold toRat; rw [div_eq_zero_iff]; simp [ha.2.2.1.ne']
  · rw [hsgn, Int.sign_pos_iff]; unfold toRat; rw [lt_div_iff₀ hda]; simp

-- non-trivial canonical operands meeting the hypotheses; the sum 1/6 + 1/3 reduces to 1/2
example : (QQ.mk (small 1) (small 6)).Canon ∧ (QQ.mk (small (-7)) (big (2 ^ 64))).Canon ∧
    QQ.add ⟨small 1, small 6⟩ ⟨small 1, small 3⟩ = .ok ⟨small 1, small 2⟩ ∧
    QQ.mk' (small 4) (small (-6)) = .ok ⟨small (-2), small 3⟩ := by
  refine ⟨?_, ?_, by decide +kernel, by decide +kernel⟩ <;> simp only [QQ.Canon] <;> decide +kernel

/-- A reachable pair on which `QQ` addition is undefined: `(-2^63) + (-2^63)`. -/
theorem C06_QQ_add_undefined :
    (QQ.ofZZ (small i64min)).Canon ∧
    QQ.add (QQ.ofZZ (small i64min)) (QQ.ofZZ (small i64min)) = .ub := by
  refine ⟨?_, by decide⟩; simp only [QQ.Canon]; decide

end CLPoly
