import Verif.Dense.Div

/-! The half-gcd of `dense_upoly_zp`: `_hgcd_iter`, `_hgcd_recursive`, `_gcd_hgcd`. -/

namespace CLPoly
namespace Dense
open Polynomial
variable {p : Nat}

theorem mul_deg_lt {x y : List Nat} {N : Nat} (h : x.length + y.length ≤ N + 1) : (toP p x * toP p y).degree < (N : WithBot Nat) := by
  by_cases hx : x = []
  · subst hx; simp
  by_cases hy : y = []
  · subst hy; simp
  have := degree_mul_toP_lt (p := p) hx hy
  exact lt_of_lt_of_le this (by exact_mod_cast (by omega))

theorem Can.drop {l : List Nat} (h : Can p l) (n : Nat) : Can p (l.drop n) := by
  refine ⟨h.below.drop n, fun hne => ?_⟩
  rw [List.getLast_drop]
  exact h.trim _

theorem add_deg_lt {f g : (ZMod p)[X]} {N : WithBot Nat} (hf : f.degree < N) (hg : g.degree < N) : (f + g).degree < N :=
  lt_of_le_of_lt (degree_add_le _ _) (max_lt hf hg)

theorem sub_deg_lt {f g : (ZMod p)[X]} {N : WithBot Nat} (hf : f.degree < N) (hg : g.degree < N) : (f - g).degree < N :=
  lt_of_le_of_lt (degree_sub_le _ _) (max_lt hf hg)

theorem shift_deg_lt {l : List Nat} {m N : Nat} (h : m + l.length ≤ N) : (X ^ m * toP p l).degree < (N : WithBot Nat) := by
  rw [degree_lt_iff_coeff_zero]
  intro i hi
  rw [coeff_X_pow_mul', coeff_toP, List.getD_eq_default _ _ (by omega)]; simp

/-- length of a canonical array whose polynomial is a shifted array plus lower terms -/
theorem length_of_top {l hi : List Nat} {F : (ZMod p)[X]} {m : Nat} (hl : Can p l) (hh : Can p hi) (h0 : hi ≠ [])
    (e : toP p l = F + X ^ m * toP p hi) (hF : F.degree < ((m + (hi.length - 1) : Nat) : WithBot Nat)) : l.length = m + hi.length := by
  have hpos := List.length_pos_iff.2 h0
  apply le_antisymm
  · rw [hl.length_le_iff, e]
    exact add_deg_lt (lt_of_lt_of_le hF (by exact_mod_cast (by omega))) (shift_deg_lt le_rfl)
  · by_contra hlt
    have h1 := (hl.length_le_iff (m + (hi.length - 1))).1 (by omega)
    have h2 := (degree_lt_iff_coeff_zero _ _).1 h1 (m + (hi.length - 1)) le_rfl
    rw [e, coeff_add, (degree_lt_iff_coeff_zero _ _).1 hF _ le_rfl, zero_add, coeff_X_pow_mul', if_pos (by omega),
      Nat.add_sub_cancel_left, coeff_toP, getD_last h0] at h2
    exact cast_ne_zero (hh.below _ (List.getLast_mem h0)) (hh.trim h0) h2

theorem quo_length [hp : Fact p.Prime] {A B q r : List Nat} (hB : Can p B) (hq : Can p q) (hB0 : B ≠ [])
    (e : toP p q * toP p B + toP p r = toP p A) (hr : r.length < B.length) (hle : B.length ≤ A.length) :
    q.length + B.length ≤ A.length + 1 := by
  have hBpos := List.length_pos_iff.2 hB0
  by_cases hq0 : q = []
  · subst hq0; simp; omega
  have hqpos := List.length_pos_iff.2 hq0
  have h1 : (toP p q * toP p B).degree < (A.length : WithBot Nat) := by
    have : toP p q * toP p B = toP p A - toP p r := by rw [← e]; ring
    rw [this]
    exact sub_deg_lt (degree_toP_lt A) (lt_of_lt_of_le (degree_toP_lt r) (by exact_mod_cast (by omega)))
  rw [degree_mul, hq.degree_eq hq0, hB.degree_eq hB0] at h1
  have : q.length - 1 + (B.length - 1) < A.length := by exact_mod_cast h1
  omega

/-! ### matrices -/

/-- all four entries are canonical arrays of length at most `N` -/
structure MatOK (p N : Nat) (M : Mat) : Prop where
  c00 : Can p M.m00
  c01 : Can p M.m01
  c10 : Can p M.m10
  c11 : Can p M.m11
  l00 : M.m00.length ≤ N
  l01 : M.m01.length ≤ N
  l10 : M.m10.length ≤ N
  l11 : M.m11.length ≤ N

theorem MatOK.mono {M : Mat} {N N' : Nat} (h : MatOK p N M) (hN : N ≤ N') : MatOK p N' M :=
  ⟨h.c00, h.c01, h.c10, h.c11, h.l00.trans hN, h.l01.trans hN, h.l10.trans hN, h.l11.trans hN⟩

/-- `(a, b) = M · (A, B)` with determinant `s = ±1` -/
structure Unimod (p : Nat) (M : Mat) (s : Int) (a b A B : (ZMod p)[X]) : Prop where
  fst : a = toP p M.m00 * A + toP p M.m01 * B
  snd : b = toP p M.m10 * A + toP p M.m11 * B
  det : toP p M.m00 * toP p M.m11 - toP p M.m01 * toP p M.m10 = (s : (ZMod p)[X])
  sgn : s = 1 ∨ s = -1

theorem Unimod.isGcd {M : Mat} {s : Int} {a b A B g : (ZMod p)[X]} (h : Unimod p M s a b A B) (hg : IsGcd g A B) : IsGcd g a b := by
  have hs : ((s : Int) : (ZMod p)[X]) * s = 1 := by
    rcases h.sgn with e | e <;> rw [e] <;> simp
  refine ⟨?_, ?_, ?_⟩
  · rw [h.fst]; exact dvd_add (dvd_mul_of_dvd_right hg.1 _) (dvd_mul_of_dvd_right hg.2.1 _)
  · rw [h.snd]; exact dvd_add (dvd_mul_of_dvd_right hg.1 _) (dvd_mul_of_dvd_right hg.2.1 _)
  · intro d ha hb
    have eA : A = s * toP p M.m11 * a - s * toP p M.m01 * b := by
      rw [h.fst, h.snd]
      linear_combination (-A) * hs - (s : (ZMod p)[X]) * A * h.det
    have eB : B = s * toP p M.m00 * b - s * toP p M.m10 * a := by
      rw [h.fst, h.snd]
      linear_combination (-B) * hs - (s : (ZMod p)[X]) * B * h.det
    apply hg.2.2
    · rw [eA]; exact dvd_sub (dvd_mul_of_dvd_right ha _) (dvd_mul_of_dvd_right hb _)
    · rw [eB]; exact dvd_sub (dvd_mul_of_dvd_right hb _) (dvd_mul_of_dvd_right ha _)

theorem toP_one : toP p [1] = 1 := by simp

theorem one_ok [hp : Fact p.Prime] : MatOK p 1 Mat.one := by
  have h1 : Can p [1] := by
    refine ⟨fun a ha => ?_, fun _ => by simp⟩
    rw [List.mem_singleton.1 ha]; exact hp.out.one_lt
  exact ⟨h1, Can.nil, Can.nil, h1, by simp [Mat.one], by simp [Mat.one], by simp [Mat.one], by simp [Mat.one]⟩

theorem one_unimod (a b : (ZMod p)[X]) : Unimod p Mat.one 1 a b a b := by
  constructor <;> simp [Mat.one]

theorem matEntry_spec [hp : Fact p.Prime] (hW : p < W) {P Q R S : List Nat} (hP : Can p P) (hQ : Can p Q) (hR : Can p R) (hS : Can p S)
    (lP : P.length < W) (lQ : Q.length < W) (lR : R.length < W) (lS : S.length < W) :
    Can p (matEntry (precompute p) P Q R S) ∧ toP p (matEntry (precompute p) P Q R S) = toP p P * toP p Q + toP p R * toP p S := by
  have h0 := hp.out.pos
  have c1 := mulAny_can hW hP hQ lP lQ
  have c2 := mulAny_can hW hR hS lR lS
  obtain ⟨_, v1, _⟩ := mulAny_spec h0 hW hP.below hQ.below lP lQ
  obtain ⟨_, v2, _⟩ := mulAny_spec h0 hW hR.below hS.below lR lS
  unfold matEntry
  dsimp only
  rw [← v1, ← v2]
  generalize mulAny (precompute p) P Q = PQ at *
  generalize mulAny (precompute p) R S = RS at *
  by_cases hx : PQ.length > 0
  · by_cases hy : RS.length > 0
    · rw [if_pos ⟨hx, hy⟩]; exact polyAdd_spec hW c1.below c2.below
    · rw [if_neg (by tauto), if_pos hx]
      have : RS = [] := List.length_eq_zero_iff.1 (by omega)
      subst this; exact ⟨c1, by simp⟩
  · rw [if_neg (by tauto), if_neg hx]
    have : PQ = [] := List.length_eq_zero_iff.1 (by omega)
    subst this
    by_cases hy : RS.length > 0
    · rw [if_pos hy]; exact ⟨c2, by simp⟩
    · rw [if_neg hy]
      have : RS = [] := List.length_eq_zero_iff.1 (by omega)
      subst this; exact ⟨Can.nil, by simp⟩

theorem rowUpdate_spec [hp : Fact p.Prime] (hW : p < W) {Q x y : List Nat} (hQ : Can p Q) (hx : Can p x) (hy : Can p y)
    (lQ : Q.length < W) (lx : x.length < W) :
    Can p (rowUpdate (precompute p) Q x y).1 ∧ toP p (rowUpdate (precompute p) Q x y).1 = toP p y + toP p Q * toP p x ∧
      (rowUpdate (precompute p) Q x y).2 = x := by
  obtain ⟨b1, v1, _⟩ := mulAny_spec hp.out.pos hW hQ.below hx.below lQ lx
  unfold rowUpdate
  by_cases h : Q.length ≠ 0 ∧ x.length ≠ 0
  · rw [if_pos h]
    obtain ⟨a1, a2⟩ := polyAdd_spec hW hy.below b1
    exact ⟨a1, by dsimp only; rw [a2, v1], rfl⟩
  · rw [if_neg h]
    refine ⟨hy, ?_, rfl⟩
    have : Q = [] ∨ x = [] := by
      rcases Classical.em (Q.length = 0) with e | e
      · exact Or.inl (List.length_eq_zero_iff.1 e)
      · refine Or.inr (List.length_eq_zero_iff.1 (by by_contra h2; exact h ⟨e, h2⟩))
    rcases this with e | e <;> simp [e]

/-! ### specification of a half-gcd -/

/-- what a half-gcd of `a`, `b` must deliver -/
structure HSpec (p : Nat) (a b : List Nat) (r : HRes) : Prop where
  canA : Can p r.A
  canB : Can p r.B
  mat : MatOK p (a.length + 1 - r.A.length) r.M
  uni : Unimod p r.M r.sgn (toP p a) (toP p b) (toP p r.A) (toP p r.B)
  big : a.length / 2 + 1 ≤ r.A.length
  small : r.B.length ≤ a.length / 2
  le : r.A.length ≤ a.length

theorem hgcdIterLoop_spec [hp : Fact p.Prime] (hW : p < W) (m : Nat) (a b : List Nat) (hn : a.length < W) (fuel : Nat) : ∀ s : HRes,
    s.B.length < fuel → Can p s.A → Can p s.B → MatOK p (a.length + 1 - s.A.length) s.M →
    Unimod p s.M s.sgn (toP p a) (toP p b) (toP p s.A) (toP p s.B) → m + 1 ≤ s.A.length → s.B.length < s.A.length → s.A.length ≤ a.length →
    Can p (hgcdIterLoop (precompute p) m fuel s).A ∧ Can p (hgcdIterLoop (precompute p) m fuel s).B ∧
      MatOK p (a.length + 1 - (hgcdIterLoop (precompute p) m fuel s).A.length) (hgcdIterLoop (precompute p) m fuel s).M ∧
      Unimod p (hgcdIterLoop (precompute p) m fuel s).M (hgcdIterLoop (precompute p) m fuel s).sgn (toP p a) (toP p b)
        (toP p (hgcdIterLoop (precompute p) m fuel s).A) (toP p (hgcdIterLoop (precompute p) m fuel s).B) ∧
      m + 1 ≤ (hgcdIterLoop (precompute p) m fuel s).A.length ∧ (hgcdIterLoop (precompute p) m fuel s).B.length ≤ m ∧
      (hgcdIterLoop (precompute p) m fuel s).A.length ≤ a.length := by
  induction fuel with
  | zero => intro s h; omega
  | succ fuel ih =>
    intro s hf cA cB hM hU h1 h2 h3
    simp only [hgcdIterLoop]
    by_cases hB : s.B.length ≥ m + 1
    · rw [if_pos hB]
      have hB0 : s.B ≠ [] := List.length_pos_iff.1 (by omega)
      obtain ⟨dq, dr, de, dl⟩ := polyDivRem_spec hW cA cB hB0 (by omega)
      have ql := quo_length cB dq hB0 de dl h2.le
      generalize polyDivRem (precompute p) s.A s.B = qr at *
      obtain ⟨u1, u2, u3⟩ := rowUpdate_spec hW dq hM.c10 hM.c11 (by omega) (by have := hM.l10; omega)
      obtain ⟨v1, v2, v3⟩ := rowUpdate_spec hW dq hM.c00 hM.c01 (by omega) (by have := hM.l00; omega)
      have lens : ∀ (x y : List Nat), x.length ≤ a.length + 1 - s.A.length → y.length ≤ a.length + 1 - s.A.length → ∀ z : List Nat, Can p z →
          toP p z = toP p y + toP p qr.1 * toP p x → z.length ≤ a.length + 1 - s.B.length := by
        intro x y hx hy z hz e
        rw [hz.length_le_iff, e]
        exact add_deg_lt (lt_of_lt_of_le (degree_toP_lt y) (by exact_mod_cast (by omega))) (mul_deg_lt (by omega))
      apply ih
      · dsimp only; omega
      · exact cB
      · exact dr
      · refine ⟨v1, by rw [v3]; exact hM.c00, u1, by rw [u3]; exact hM.c10, lens _ _ hM.l00 hM.l01 _ v1 v2, ?_,
          lens _ _ hM.l10 hM.l11 _ u1 u2, ?_⟩
        · rw [v3]; exact hM.l00.trans (by dsimp only; omega)
        · rw [u3]; exact hM.l10.trans (by dsimp only; omega)
      · refine ⟨?_, ?_, ?_, ?_⟩
        · rw [v2, v3, hU.fst, ← de]; ring
        · rw [u2, u3, hU.snd, ← de]; ring
        · dsimp only; rw [v2, v3, u2, u3]; push_cast; rw [← hU.det]; ring
        · dsimp only; rcases hU.sgn with e | e <;> rw [e] <;> simp
      · exact hB
      · exact dl
      · dsimp only; omega
    · rw [if_neg hB]
      exact ⟨cA, cB, hM, hU, h1, by omega, h3⟩

theorem hgcdIter_spec [hp : Fact p.Prime] (hW : p < W) {a b : List Nat} (ha : Can p a) (hb : Can p b) (hn : a.length < W)
    (hlt : b.length < a.length) : HSpec p a b (hgcdIter (precompute p) a b) := by
  obtain ⟨r1, r2, r3, r4, r5, r6, r7⟩ := hgcdIterLoop_spec hW (a.length / 2) a b hn (b.length + 1) ⟨Mat.one, 1, a, b⟩ (by dsimp only; omega)
    ha hb (one_ok.mono (by dsimp only; omega)) (one_unimod _ _) (by dsimp only; omega) hlt le_rfl
  exact ⟨r1, r2, r3, r4, r5, r6, r7⟩

theorem pad_drop (m : Nat) (s : List Nat) : (pad m s).drop m = s.drop m := by
  unfold pad
  by_cases h : m ≤ s.length
  · rw [show m - s.length = 0 by omega]; simp
  · rw [List.drop_of_length_le (by simp; omega), List.drop_of_length_le (by omega)]

theorem recombine_spec [hp : Fact p.Prime] (hW : p < W) (m : Nat) (neg : Bool) {x lo1 y lo2 hi : List Nat} (hx : Below p x) (h1 : Below p lo1)
    (hy : Below p y) (h2 : Below p lo2) (hh : Below p hi) (lx : x.length < W) (l1 : lo1.length < W) (ly : y.length < W) (l2 : lo2.length < W) :
    Can p (recombine (precompute p) m neg x lo1 y lo2 hi) ∧ toP p (recombine (precompute p) m neg x lo1 y lo2 hi) =
      (if neg then toP p y * toP p lo2 - toP p x * toP p lo1 else toP p x * toP p lo1 - toP p y * toP p lo2) + X ^ m * toP p hi := by
  have h0 := hp.out.pos
  obtain ⟨b1, v1, _⟩ := mulAny_spec h0 hW hx h1 lx l1
  obtain ⟨b2, v2, _⟩ := mulAny_spec h0 hW hy h2 ly l2
  unfold recombine
  dsimp only
  rw [← v1, ← v2]
  generalize mulAny (precompute p) x lo1 = u at *
  generalize mulAny (precompute p) y lo2 = v at *
  obtain ⟨s, hs⟩ : ∃ s, s = if neg then polySub (precompute p) v u else polySub (precompute p) u v := ⟨_, rfl⟩
  have hsv : Can p s ∧ toP p s = if neg then toP p v - toP p u else toP p u - toP p v := by
    rw [hs]; cases neg
    · exact polySub_spec hW b1 b2
    · exact polySub_spec hW b2 b1
  rw [← hs, ← hsv.2]
  obtain ⟨a1, a2, _⟩ := addRaw_spec hW _ _ (hsv.1.below.drop m) hh
  refine ⟨Can.strip (Below.append.2 ⟨(hsv.1.below.pad h0 m).take m, a1⟩), ?_⟩
  have hl : ((pad m s).take m).length = m := by rw [List.length_take]; unfold pad; simp; omega
  rw [toP_strip, toP_append, hl, a2]
  have := toP_take_drop' (p := p) m (pad m s)
  rw [toP_pad, pad_drop] at this
  rw [this]; ring

/-- undoing the matrix on the low halves -/
theorem unimod_recombine {M : Mat} {s : Int} {a0 b0 a3 b3 alo blo a2 b2 : (ZMod p)[X]} {m : Nat} (h : Unimod p M s a0 b0 a3 b3)
    (ea : a2 = (s : (ZMod p)[X]) * (toP p M.m11 * alo - toP p M.m01 * blo) + X ^ m * a3)
    (eb : b2 = (s : (ZMod p)[X]) * (toP p M.m00 * blo - toP p M.m10 * alo) + X ^ m * b3) :
    Unimod p M s (alo + X ^ m * a0) (blo + X ^ m * b0) a2 b2 := by
  have hs : ((s : Int) : (ZMod p)[X]) * s = 1 := by
    rcases h.sgn with e | e <;> rw [e] <;> simp
  refine ⟨?_, ?_, h.det, h.sgn⟩
  · rw [ea, eb, h.fst]
    linear_combination (-alo) * hs - (s : (ZMod p)[X]) * alo * h.det
  · rw [ea, eb, h.snd]
    linear_combination (-blo) * hs - (s : (ZMod p)[X]) * blo * h.det

/-- the two recombinations of a level, for a half-gcd `r` of the high parts -/
theorem level_spec [hp : Fact p.Prime] (hW : p < W) {a b : List Nat} {k : Nat} {r : HRes} (ha : Can p a) (hb : Can p b) (hn : a.length < W)
    (hlt : b.length < a.length) (hr : HSpec p (a.drop k) (b.drop k) r) :
    let b2 := recombine (precompute p) k (r.sgn ≥ 0) r.M.m10 (a.take k) r.M.m00 (b.take k) r.B
    let a2 := recombine (precompute p) k (r.sgn < 0) r.M.m11 (a.take k) r.M.m01 (b.take k) r.A
    Can p a2 ∧ Can p b2 ∧ Unimod p r.M r.sgn (toP p a) (toP p b) (toP p a2) (toP p b2) ∧
      (k ≤ a.length → a2.length = k + r.A.length ∧ b2.length ≤ k + (a.length - k) / 2) := by
  intro b2 a2
  have hN : a.length - k + 1 - r.A.length < W := by have := hr.big; omega
  have ldrop : (a.drop k).length = a.length - k := List.length_drop
  have hM := hr.mat
  rw [ldrop] at hM
  have e1 := hM.l00; have e2 := hM.l01; have e3 := hM.l10; have e4 := hM.l11
  have lt1 : (a.take k).length < W := by rw [List.length_take]; omega
  have lt2 : (b.take k).length < W := by rw [List.length_take]; omega
  obtain ⟨cb, vb⟩ := recombine_spec hW k (decide (r.sgn ≥ 0)) hM.c10.below (ha.below.take k) hM.c00.below (hb.below.take k) hr.canB.below
    (by omega) lt1 (by omega) lt2
  obtain ⟨ca, va⟩ := recombine_spec hW k (decide (r.sgn < 0)) hM.c11.below (ha.below.take k) hM.c01.below (hb.below.take k) hr.canA.below
    (by omega) lt1 (by omega) lt2
  have va' : toP p a2 = (r.sgn : (ZMod p)[X]) * (toP p r.M.m11 * toP p (a.take k) - toP p r.M.m01 * toP p (b.take k)) + X ^ k * toP p r.A := by
    show toP p a2 = _
    rw [show toP p a2 = _ from va]
    rcases hr.uni.sgn with e | e
    · rw [e]; simp
    · rw [e]; simp
  have vb' : toP p b2 = (r.sgn : (ZMod p)[X]) * (toP p r.M.m00 * toP p (b.take k) - toP p r.M.m10 * toP p (a.take k)) + X ^ k * toP p r.B := by
    rw [show toP p b2 = _ from vb]
    rcases hr.uni.sgn with e | e
    · rw [e]; simp
    · rw [e]; simp
  refine ⟨ca, cb, ?_, ?_⟩
  · have := unimod_recombine hr.uni va' vb'
    rwa [← toP_take_drop', ← toP_take_drop'] at this
  · intro hk
    have big := hr.big
    have small := hr.small
    rw [ldrop] at big small
    have la : (a.take k).length ≤ k := by rw [List.length_take]; omega
    have lb : (b.take k).length ≤ k := by rw [List.length_take]; omega
    have corr : ∀ x y : List Nat, x.length ≤ a.length - k + 1 - r.A.length → y.length ≤ a.length - k + 1 - r.A.length →
        ((r.sgn : (ZMod p)[X]) * (toP p x * toP p (a.take k) - toP p y * toP p (b.take k))).degree <
          ((k + (a.length - k) / 2 : Nat) : WithBot Nat) ∧
        ((r.sgn : (ZMod p)[X]) * (toP p x * toP p (b.take k) - toP p y * toP p (a.take k))).degree <
          ((k + (a.length - k) / 2 : Nat) : WithBot Nat) := by
      intro x y hx hy
      have h1 : ∀ z : List Nat, z.length ≤ k → ∀ w : List Nat, w.length ≤ a.length - k + 1 - r.A.length →
          (toP p w * toP p z).degree < ((k + (a.length - k) / 2 : Nat) : WithBot Nat) := by
        intro z hz w hw; apply mul_deg_lt; omega
      have h2 : ∀ f : (ZMod p)[X], f.degree < ((k + (a.length - k) / 2 : Nat) : WithBot Nat) →
          ((r.sgn : (ZMod p)[X]) * f).degree < ((k + (a.length - k) / 2 : Nat) : WithBot Nat) := by
        intro f hf
        rcases hr.uni.sgn with e | e <;> rw [e]
        · simpa using hf
        · simpa using hf
      exact ⟨h2 _ (sub_deg_lt (h1 _ la _ hx) (h1 _ lb _ hy)), h2 _ (sub_deg_lt (h1 _ lb _ hx) (h1 _ la _ hy))⟩
    constructor
    · apply length_of_top ca hr.canA (List.length_pos_iff.1 (by omega)) va'
      exact lt_of_lt_of_le (corr _ _ e4 e2).1 (by exact_mod_cast (by omega))
    · rw [cb.length_le_iff, show toP p (recombine (precompute p) k (decide (r.sgn ≥ 0)) r.M.m10 (a.take k) r.M.m00 (b.take k) r.B) = _ from vb']
      exact add_deg_lt (corr _ _ e1 e3).2 (shift_deg_lt (by omega))

set_option maxHeartbeats 2000000 in
theorem hgcdRec_spec [hp : Fact p.Prime] (hW : p < W) (fuel : Nat) : ∀ a b : List Nat, a.length < fuel → Can p a → Can p b → a.length < W →
    b.length < a.length → HSpec p a b (hgcdRec (precompute p) fuel a b) := by
  induction fuel with
  | zero => intro a b h; omega
  | succ fuel ih =>
    intro a b hf ha hb hn hlt
    obtain ⟨m, hm⟩ : ∃ m, m = a.length / 2 := ⟨_, rfl⟩
    unfold hgcdRec
    dsimp only
    rw [← hm]
    by_cases h1 : b.length < m + 1
    · rw [if_pos h1]
      exact ⟨ha, hb, one_ok.mono (by dsimp only; omega), one_unimod _ _, by dsimp only; omega, by dsimp only; omega, le_rfl⟩
    · rw [if_neg h1]
      have la0 : (a.drop m).length = a.length - m := List.length_drop
      have lb0 : (b.drop m).length = b.length - m := List.length_drop
      obtain ⟨r, hr⟩ : ∃ r, r = if (a.drop m).length < 100 then hgcdIter (precompute p) (a.drop m) (b.drop m)
        else hgcdRec (precompute p) fuel (a.drop m) (b.drop m) := ⟨_, rfl⟩
      have hrS : HSpec p (a.drop m) (b.drop m) r := by
        rw [hr]; split
        · exact hgcdIter_spec hW (ha.drop m) (hb.drop m) (by omega) (by omega)
        · exact ih _ _ (by omega) (ha.drop m) (hb.drop m) (by omega) (by omega)
      rw [← hr]
      obtain ⟨ca, cb, hU, hlen⟩ := level_spec hW ha hb hn hlt hrS
      obtain ⟨lA, lB⟩ := hlen (by omega)
      have big := hrS.big
      have small := hrS.small
      have rle := hrS.le
      have rM := hrS.mat
      rw [la0] at big small rle rM
      generalize recombine (precompute p) m (decide (r.sgn ≥ 0)) r.M.m10 (a.take m) r.M.m00 (b.take m) r.B = b2 at *
      generalize recombine (precompute p) m (decide (r.sgn < 0)) r.M.m11 (a.take m) r.M.m01 (b.take m) r.A = a2 at *
      by_cases h2 : b2.length < m + 1
      · rw [if_pos h2]
        exact ⟨ca, cb, rM.mono (by dsimp only; omega), hU, by dsimp only; omega, by dsimp only; omega, by dsimp only; omega⟩
      · rw [if_neg h2]
        have hb20 : b2 ≠ [] := List.length_pos_iff.1 (by omega)
        obtain ⟨dq, dr, de, dl⟩ := polyDivRem_spec hW ca cb hb20 (by omega)
        have ql := quo_length cb dq hb20 de dl (by omega)
        generalize polyDivRem (precompute p) a2 b2 = qd at *
        obtain ⟨k, hk⟩ : ∃ k, k = 2 * m - b2.length + 1 := ⟨_, rfl⟩
        rw [← hk]
        have hk' : k + b2.length = 2 * m + 1 := by omega
        have lc0 : (b2.drop k).length = b2.length - k := List.length_drop
        have ld0 : (qd.2.drop k).length = qd.2.length - k := List.length_drop
        obtain ⟨s, hs⟩ : ∃ s, s = if (b2.drop k).length < 100 then hgcdIter (precompute p) (b2.drop k) (qd.2.drop k)
          else hgcdRec (precompute p) fuel (b2.drop k) (qd.2.drop k) := ⟨_, rfl⟩
        have hsS : HSpec p (b2.drop k) (qd.2.drop k) s := by
          rw [hs]; split
          · exact hgcdIter_spec hW (cb.drop k) (dr.drop k) (by omega) (by omega)
          · exact ih _ _ (by omega) (cb.drop k) (dr.drop k) (by omega) (by omega)
        rw [← hs]
        obtain ⟨cA, cB, hU2, hlen2⟩ := level_spec hW cb dr (by omega) dl hsS
        obtain ⟨lA2, lB2⟩ := hlen2 (by omega)
        have big2 := hsS.big
        have small2 := hsS.small
        have sle := hsS.le
        have sM := hsS.mat
        rw [lc0] at big2 small2 sle sM
        generalize recombine (precompute p) k (decide (s.sgn ≥ 0)) s.M.m10 (b2.take k) s.M.m00 (qd.2.take k) s.B = B at *
        generalize recombine (precompute p) k (decide (s.sgn < 0)) s.M.m11 (b2.take k) s.M.m01 (qd.2.take k) s.A = A at *
        have s00 := sM.l00; have s01 := sM.l01; have s10 := sM.l10; have s11 := sM.l11
        have r00 := rM.l00; have r01 := rM.l01; have r10 := rM.l10; have r11 := rM.l11
        -- the modified second matrix
        have upd : ∀ x y : List Nat, Can p x → Can p y → x.length ≤ b2.length - k + 1 - s.A.length → y.length ≤ b2.length - k + 1 - s.A.length →
            ∃ z, z = (if qd.1.length > 0 ∧ x.length > 0 then polyAdd (precompute p) y (mulAny (precompute p) qd.1 x) else y) ∧ Can p z ∧
              toP p z = toP p y + toP p qd.1 * toP p x ∧ z.length ≤ b2.length - k + (a2.length - b2.length + 1) - s.A.length := by
          intro x y hx hy lx ly
          refine ⟨_, rfl, ?_⟩
          have key : Can p (if qd.1.length > 0 ∧ x.length > 0 then polyAdd (precompute p) y (mulAny (precompute p) qd.1 x) else y) ∧
              toP p (if qd.1.length > 0 ∧ x.length > 0 then polyAdd (precompute p) y (mulAny (precompute p) qd.1 x) else y) =
                toP p y + toP p qd.1 * toP p x := by
            obtain ⟨b1, v1, _⟩ := mulAny_spec hp.out.pos hW dq.below hx.below (by omega) (by omega)
            by_cases h : qd.1.length > 0 ∧ x.length > 0
            · rw [if_pos h]
              obtain ⟨a1, a2'⟩ := polyAdd_spec hW hy.below b1
              exact ⟨a1, by rw [a2', v1]⟩
            · rw [if_neg h]
              refine ⟨hy, ?_⟩
              have : qd.1 = [] ∨ x = [] := by
                rcases Nat.eq_zero_or_pos qd.1.length with e | e
                · exact Or.inl (List.length_eq_zero_iff.1 e)
                · exact Or.inr (List.length_eq_zero_iff.1 (by by_contra h2; exact h ⟨e, by omega⟩))
              rcases this with e | e <;> simp [e]
          refine ⟨key.1, key.2, ?_⟩
          rw [key.1.length_le_iff, key.2]
          exact add_deg_lt (lt_of_lt_of_le (degree_toP_lt y) (by exact_mod_cast (by omega))) (mul_deg_lt (by omega))
        obtain ⟨S0, e0, cS0, vS0, lS0⟩ := upd s.M.m00 s.M.m10 sM.c00 sM.c10 s00 s10
        obtain ⟨S1, e1, cS1, vS1, lS1⟩ := upd s.M.m01 s.M.m11 sM.c01 sM.c11 s01 s11
        rw [← e0, ← e1]
        have entry : ∀ x y u v : List Nat, Can p x → Can p y → Can p u → Can p v →
            x.length ≤ a.length - m + 1 - r.A.length → y.length ≤ a.length - m + 1 - r.A.length →
            u.length ≤ b2.length - k + (a2.length - b2.length + 1) - s.A.length → v.length ≤ b2.length - k + (a2.length - b2.length + 1) - s.A.length →
            Can p (matEntry (precompute p) x u y v) ∧ toP p (matEntry (precompute p) x u y v) = toP p x * toP p u + toP p y * toP p v ∧
              (matEntry (precompute p) x u y v).length ≤ a.length + 1 - A.length := by
          intro x y u v hx hy hu hv lx ly lu lv
          obtain ⟨c1, c2⟩ := matEntry_spec hW hx hu hy hv (by omega) (by omega) (by omega) (by omega)
          refine ⟨c1, c2, ?_⟩
          rw [c1.length_le_iff, c2]
          exact add_deg_lt (mul_deg_lt (by omega)) (mul_deg_lt (by omega))
        obtain ⟨m1, m2, m3⟩ := entry r.M.m00 r.M.m01 S0 s.M.m00 rM.c00 rM.c01 cS0 sM.c00 r00 r01 lS0 (by omega)
        obtain ⟨m4, m5, m6⟩ := entry r.M.m00 r.M.m01 S1 s.M.m01 rM.c00 rM.c01 cS1 sM.c01 r00 r01 lS1 (by omega)
        obtain ⟨m7, m8, m9⟩ := entry r.M.m10 r.M.m11 S0 s.M.m00 rM.c10 rM.c11 cS0 sM.c00 r10 r11 lS0 (by omega)
        obtain ⟨n1, n2, n3⟩ := entry r.M.m10 r.M.m11 S1 s.M.m01 rM.c10 rM.c11 cS1 sM.c01 r10 r11 lS1 (by omega)
        refine ⟨cA, cB, ⟨m1, m4, m7, n1, m3, m6, m9, n3⟩, ?_, by dsimp only; omega, by dsimp only; omega, by dsimp only; omega⟩
        refine ⟨?_, ?_, ?_, ?_⟩
        · dsimp only [Mat.mul]
          rw [m2, m5, vS0, vS1, hU.fst, ← de, hU2.fst, hU2.snd]; ring
        · dsimp only [Mat.mul]
          rw [m8, n2, vS0, vS1, hU.snd, ← de, hU2.fst, hU2.snd]; ring
        · dsimp only [Mat.mul]
          rw [m2, m5, m8, n2, vS0, vS1]; push_cast; rw [← hU.det, ← hU2.det]; ring
        · dsimp only
          rcases hU.sgn with e | e <;> rcases hU2.sgn with e' | e' <;> rw [e, e'] <;> simp

/-! ### the gcd built on it -/

theorem gcdHgcdLoop_spec [hp : Fact p.Prime] (hW : p < W) (fuel : Nat) : ∀ G J : List Nat, J.length < fuel → Can p G → Can p J → G.length < W →
    J.length < W → G ≠ [] → Can p (gcdHgcdLoop (precompute p) fuel G J) ∧ IsGcd (toP p (gcdHgcdLoop (precompute p) fuel G J)) (toP p G) (toP p J) ∧
      gcdHgcdLoop (precompute p) fuel G J ≠ [] := by
  induction fuel with
  | zero => intro G J h; omega
  | succ fuel ih =>
    intro G J hf hG hJ lG lJ hG0
    simp only [gcdHgcdLoop]
    by_cases h : J.length ≠ 0
    · rw [if_pos h]
      have hJ0 : J ≠ [] := List.length_pos_iff.1 (by omega)
      obtain ⟨_, dr, de, dl⟩ := polyDivRem_spec hW hG hJ hJ0 lG
      obtain ⟨R, eR⟩ : ∃ R, R = (polyDivRem (precompute p) G J).2 := ⟨_, rfl⟩
      obtain ⟨q, eq⟩ : ∃ q, q = (polyDivRem (precompute p) G J).1 := ⟨_, rfl⟩
      rw [← eR] at dr de dl ⊢
      rw [← eq] at de
      clear eR eq
      by_cases hR : R.length = 0
      · rw [if_pos hR]
        have : R = [] := List.length_eq_zero_iff.1 hR
        subst this
        exact ⟨hJ, (IsGcd.zero_right _).of_combo de, hJ0⟩
      · rw [if_neg hR]
        by_cases h340 : J.length < 340
        · rw [if_pos h340]
          obtain ⟨g1, g2, g3⟩ := gcdEuclid_spec hW (J.length + R.length + 1) J R hJ dr lJ (lt_trans dl lJ) (by omega)
          exact ⟨g1, g2.of_combo de, g3 (Or.inl hJ0)⟩
        · rw [if_neg h340]
          have hS := hgcdRec_spec hW (J.length + 1) J R (by omega) hJ dr lJ dl
          have b1 := hS.big; have b2 := hS.small; have b3 := hS.le
          obtain ⟨g1, g2, g3⟩ := ih _ _ (by omega) hS.canA hS.canB (by omega) (by omega) (List.length_pos_iff.1 (by omega))
          exact ⟨g1, (hS.uni.isGcd g2).of_combo de, g3⟩
    · rw [if_neg h]
      push Not at h
      have : J = [] := List.length_eq_zero_iff.1 h
      subst this
      exact ⟨hG, IsGcd.zero_right _, hG0⟩

theorem gcdHgcd_spec [hp : Fact p.Prime] (hW : p < W) {A B : List Nat} (hA : Can p A) (hB : Can p B) (lA : A.length < W) (lB : B.length < W)
    (hB0 : B ≠ []) : Can p (gcdHgcd (precompute p) A B) ∧ IsGcd (toP p (gcdHgcd (precompute p) A B)) (toP p A) (toP p B) ∧
      gcdHgcd (precompute p) A B ≠ [] := by
  unfold gcdHgcd
  dsimp only
  obtain ⟨_, dr, de, dl⟩ := polyDivRem_spec hW hA hB hB0 lA
  generalize (polyDivRem (precompute p) A B).2 = R at *
  generalize (polyDivRem (precompute p) A B).1 = q at *
  by_cases hR : R.length = 0
  · rw [if_pos hR]
    have : R = [] := List.length_eq_zero_iff.1 hR
    subst this
    exact ⟨hB, (IsGcd.zero_right _).of_combo de, hB0⟩
  · rw [if_neg hR]
    have hS := hgcdRec_spec hW (B.length + 1) B R (by omega) hB dr lB dl
    have b1 := hS.big; have b2 := hS.small; have b3 := hS.le
    obtain ⟨g1, g2, g3⟩ := gcdHgcdLoop_spec hW (B.length + 1) _ _ (by omega) hS.canA hS.canB (by omega) (by omega)
      (List.length_pos_iff.1 (by omega))
    exact ⟨g1, (hS.uni.isGcd g2).of_combo de, g3⟩

end Dense
end CLPoly
