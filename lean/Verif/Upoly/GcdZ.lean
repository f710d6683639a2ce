import Verif.Upoly.Heu
import Mathlib.RingTheory.Int.Basic

/-! # Correctness of the modular gcd over ℤ: whatever is returned is a greatest common divisor -/

namespace CLPoly
namespace Upoly
open Polynomial
open Dense (IsGcd)

theorem mem_of_coeff_ne {R : Type*} [CommRing R] [DecidableEq R] {f : UPoly R} {F : R[X]} (h : Is f F) {i : Nat} (hi : F.coeff i ≠ 0) : ∃ t ∈ f, t.1 = i := by
  by_contra hc
  exact hi (coeff_not_mem h fun t ht e => hc ⟨t, ht, e⟩)

/-- reduction modulo `p` -/
theorem polyMod_is {p : Nat} {f : UPoly ℤ} {F : ℤ[X]} (h : Is f F) : Is (polyMod p f) (F.map (Int.castRingHom (ZMod p))) := by
  obtain ⟨hc, rfl⟩ := h
  induction f with
  | nil => simpa [polyMod] using nil_is
  | cons t l ih =>
    obtain ⟨h1, h2, h3⟩ := canon_cons.1 hc
    obtain ⟨c, e⟩ := ih h3
    have hmem : ∀ u ∈ polyMod p l, u.1 < t.1 := by
      intro u hu
      obtain ⟨v, hv, e⟩ := List.mem_filterMap.1 hu
      split at e
      · simp only [Option.some.injEq] at e; rw [← e]; exact h1 v hv
      · simp at e
    rw [toPoly_cons, Polynomial.map_add, map_monomial]
    show Is (List.filterMap _ (t :: l)) _
    rw [List.filterMap_cons]
    by_cases hz : (t.2 : ZMod p) = 0
    · rw [if_neg (by simpa using hz)]
      show Is (polyMod p l) _
      refine ⟨c, ?_⟩
      rw [e]
      show _ = monomial t.1 ((t.2 : ℤ) : ZMod p) + _
      rw [hz]; simp
    · rw [if_pos hz]
      refine ⟨canon_cons.2 ⟨hmem, hz, c⟩, ?_⟩
      show toPoly ((t.1, (t.2 : ZMod p)) :: polyMod p l) = _
      rw [toPoly_cons, e]
      rfl

/-! ## symmetric residues -/

theorem symRed_spec {M : ℤ} (hM : 0 < M) (c : ℤ) : M ∣ symRed M c - c ∧ 2 * |symRed M c| ≤ M := by
  have h1 : M ∣ Int.tmod c M - c := by
    have := Int.tmod_add_mul_tdiv c M
    exact ⟨-(c.tdiv M), by linarith [mul_neg M (c.tdiv M)]⟩
  have h2 : |Int.tmod c M| < M := by
    rw [abs_lt]
    have := Int.tmod_lt_of_pos c hM
    have h3 : -M < Int.tmod c M := by
      have h4 := Int.tmod_lt_of_pos (-c) hM
      rw [Int.neg_tmod] at h4
      omega
    exact ⟨h3, this⟩
  obtain ⟨r, hr⟩ : ∃ r, r = Int.tmod c M := ⟨_, rfl⟩
  unfold symRed
  simp only
  rw [← hr] at h1 h2 ⊢
  rw [abs_lt] at h2
  have e1 : Int.tdiv M 2 = M / 2 := Int.tdiv_eq_ediv_of_nonneg hM.le
  have e2 : Int.tdiv (-M) 2 = -(M / 2) := by rw [Int.neg_tdiv, e1]
  rw [e1, e2]
  split
  · refine ⟨?_, ?_⟩
    · have : r - M - c = (r - c) - M := by ring
      rw [this]; exact dvd_sub_self_right.2 h1
    · rw [abs_of_neg (by omega)]; omega
  · split
    · refine ⟨?_, ?_⟩
      · have : r + M - c = (r - c) + M := by ring
        rw [this]; exact dvd_add_self_right.2 h1
      · rw [abs_of_pos (by omega)]; omega
    · refine ⟨h1, ?_⟩
      rcases abs_cases r with ⟨e, _⟩ | ⟨e, _⟩ <;> rw [e] <;> omega

/-! ## the first image -/

theorem liftFirst_is {p : Nat} [hp : Fact p.Prime] {f : UPoly (ZMod p)} {F : (ZMod p)[X]} (h : Is f F) :
    ∃ P, Is (liftFirst p f) P ∧ P.map (Int.castRingHom (ZMod p)) = F ∧ P.natDegree = F.natDegree ∧ ∀ i, |P.coeff i| < p := by
  have key : ∀ t : Nat × ZMod p, ∃ c : ℤ, ((t.1, if Int.tmod (t.2.val : ℤ) p > Int.tdiv (p : ℤ) 2 then Int.tmod (t.2.val : ℤ) p - p else Int.tmod (t.2.val : ℤ) p) : Nat × ℤ) = (t.1, c) ∧
      ((c : ℤ) : ZMod p) = t.2 ∧ |c| < p := by
    intro t
    refine ⟨_, rfl, ?_, ?_⟩
    · have hlt := ZMod.val_lt t.2
      rw [Int.tmod_eq_of_lt (by positivity) (by exact_mod_cast hlt)]
      split <;> simp
    · have hlt := ZMod.val_lt t.2
      rw [Int.tmod_eq_of_lt (by positivity) (by exact_mod_cast hlt)]
      have e1 : Int.tdiv (p : ℤ) 2 = (p : ℤ) / 2 := Int.tdiv_eq_ediv_of_nonneg (by positivity)
      rw [e1]
      split <;> rw [abs_lt] <;> omega
  obtain ⟨hc, rfl⟩ := h
  have main : ∀ f : UPoly (ZMod p), Canon comp f → Is (liftFirst p f) (toPoly (liftFirst p f)) ∧
      (toPoly (liftFirst p f)).map (Int.castRingHom (ZMod p)) = toPoly f ∧ (∀ u ∈ liftFirst p f, |u.2| < (p : ℤ)) ∧
      (liftFirst p f).map Prod.fst = f.map Prod.fst := by
    intro f hf
    induction f with
    | nil => exact ⟨nil_is, by simp [liftFirst], by simp [liftFirst], rfl⟩
    | cons t l ih =>
      obtain ⟨h1, h2, h3⟩ := canon_cons.1 hf
      obtain ⟨i1, i2, i3, i4⟩ := ih h3
      obtain ⟨c, e, ec, eb⟩ := key t
      have el : liftFirst p (t :: l) = (t.1, c) :: liftFirst p l := by
        show (_ :: liftFirst p l) = _
        simp only
        rw [e]
      rw [el]
      have hc0 : c ≠ 0 := by rintro rfl; rw [Int.cast_zero] at ec; exact h2 ec.symm
      refine ⟨is_of_canon (canon_cons.2 ⟨?_, hc0, i1.canon⟩), ?_, ?_, ?_⟩
      · intro u hu
        have : u.1 ∈ (liftFirst p l).map Prod.fst := List.mem_map.2 ⟨u, hu, rfl⟩
        rw [i4] at this
        obtain ⟨v, hv, e⟩ := List.mem_map.1 this
        show u.1 < t.1
        rw [← e]; exact h1 v hv
      · rw [toPoly_cons, toPoly_cons, Polynomial.map_add, i2, map_monomial]
        show monomial t.1 ((c : ℤ) : ZMod p) + _ = _
        rw [ec]
      · intro u hu
        rcases List.mem_cons.1 hu with rfl | hu
        · exact eb
        · exact i3 u hu
      · simp [i4]
  obtain ⟨m1, m2, m3, m4⟩ := main f hc
  refine ⟨_, m1, m2, ?_, fun i => ?_⟩
  · rw [← is_deg m1, ← is_deg (is_of_canon hc)]
    cases f with
    | nil => rfl
    | cons t l => rfl
  · by_cases hi : (toPoly (liftFirst p f)).coeff i = 0
    · rw [hi, abs_zero]; exact_mod_cast hp.out.pos
    · obtain ⟨t, ht, rfl⟩ := mem_of_coeff_ne m1 hi
      rw [coeff_mem m1 ht]; exact m3 t ht

/-! ## Chinese remaindering -/

theorem coeff_cons_lt {R : Type*} [CommRing R] [DecidableEq R] {a : Nat × R} {l : UPoly R} {k : Nat} (h : k < a.1) : (toPoly (a :: l)).coeff k = (toPoly l).coeff k := by
  rw [toPoly_cons, coeff_add, coeff_monomial, if_neg (by omega), zero_add]

theorem crtMerge_spec {p : Nat} (inv PP : ℤ) : ∀ (n : Nat) (l : UPoly ℤ) (m : UPoly (ZMod p)), l.length + m.length ≤ n → Canon comp l → Canon comp m →
    ((crtMerge p inv PP l m).Pairwise fun a b => b.1 < a.1) ∧
    (∀ t ∈ crtMerge p inv PP l m, (∃ a ∈ l, a.1 = t.1) ∨ ∃ b ∈ m, b.1 = t.1) ∧
    (∀ t ∈ crtMerge p inv PP l m, t.2 = (toPoly l).coeff t.1 + ((((toPoly m).coeff t.1).val : ℤ) - (toPoly l).coeff t.1) * inv * PP) ∧
    (∀ a ∈ l, ∃ t ∈ crtMerge p inv PP l m, t.1 = a.1) ∧ (∀ b ∈ m, ∃ t ∈ crtMerge p inv PP l m, t.1 = b.1) := by
  intro n
  induction n with
  | zero =>
    intro l m hn _ _
    have : l = [] := List.length_eq_zero_iff.1 (by omega)
    subst this
    have : m = [] := List.length_eq_zero_iff.1 (by omega)
    subst this
    rw [crtMerge]
    simp
  | succ n ih =>
    intro l m hn hl hm
    -- taking a term from the left only
    have left : ∀ a l, l.length + m.length ≤ n → Canon comp (a :: l) → (∀ b ∈ m, b.1 < a.1) →
        crtMerge p inv PP (a :: l) m = (a.1, a.2 - a.2 * inv * PP) :: crtMerge p inv PP l m →
        ((crtMerge p inv PP (a :: l) m).Pairwise fun a b => b.1 < a.1) ∧
        (∀ t ∈ crtMerge p inv PP (a :: l) m, (∃ b ∈ a :: l, b.1 = t.1) ∨ ∃ b ∈ m, b.1 = t.1) ∧
        (∀ t ∈ crtMerge p inv PP (a :: l) m, t.2 = (toPoly (a :: l)).coeff t.1 + ((((toPoly m).coeff t.1).val : ℤ) - (toPoly (a :: l)).coeff t.1) * inv * PP) ∧
        (∀ b ∈ a :: l, ∃ t ∈ crtMerge p inv PP (a :: l) m, t.1 = b.1) ∧ (∀ b ∈ m, ∃ t ∈ crtMerge p inv PP (a :: l) m, t.1 = b.1) := by
      intro a l hn hal hlt e
      obtain ⟨c1, c2, c3⟩ := canon_cons.1 hal
      obtain ⟨i1, i2, i3, i4, i5⟩ := ih l m hn c3 hm
      have hk : ∀ t ∈ crtMerge p inv PP l m, t.1 < a.1 := by
        intro t ht
        rcases i2 t ht with ⟨b, hb, e⟩ | ⟨b, hb, e⟩
        · rw [← e]; exact c1 b hb
        · rw [← e]; exact hlt b hb
      rw [e]
      refine ⟨List.pairwise_cons.2 ⟨hk, i1⟩, ?_, ?_, ?_, ?_⟩
      · intro t ht
        rcases List.mem_cons.1 ht with rfl | ht
        · exact .inl ⟨a, by simp, rfl⟩
        · rcases i2 t ht with ⟨b, hb, e⟩ | h
          · exact .inl ⟨b, by simp [hb], e⟩
          · exact .inr h
      · intro t ht
        rcases List.mem_cons.1 ht with rfl | ht
        · simp only
          have h1 : (toPoly (a :: l)).coeff a.1 = a.2 := coeff_mem (is_of_canon hal) (by simp)
          have h2 : (toPoly m).coeff a.1 = 0 := coeff_not_mem (is_of_canon hm) fun b hb e => by have := hlt b hb; omega
          rw [h1, h2]
          simp only [ZMod.val_zero, Nat.cast_zero]
          ring
        · rw [coeff_cons_lt (hk t ht)]; exact i3 t ht
      · intro b hb
        rcases List.mem_cons.1 hb with rfl | hb
        · exact ⟨_, List.mem_cons_self, rfl⟩
        · obtain ⟨t, ht, e⟩ := i4 b hb
          exact ⟨t, by simp [ht], e⟩
      · intro b hb
        obtain ⟨t, ht, e⟩ := i5 b hb
        exact ⟨t, by simp [ht], e⟩
    -- from the right only
    have right : ∀ b m', m = b :: m' → l.length + m'.length ≤ n → (∀ a ∈ l, a.1 < b.1) →
        crtMerge p inv PP l (b :: m') = (b.1, (b.2.val : ℤ) * inv * PP) :: crtMerge p inv PP l m' →
        ((crtMerge p inv PP l (b :: m')).Pairwise fun a b => b.1 < a.1) ∧
        (∀ t ∈ crtMerge p inv PP l (b :: m'), (∃ a ∈ l, a.1 = t.1) ∨ ∃ c ∈ b :: m', c.1 = t.1) ∧
        (∀ t ∈ crtMerge p inv PP l (b :: m'), t.2 = (toPoly l).coeff t.1 + ((((toPoly (b :: m')).coeff t.1).val : ℤ) - (toPoly l).coeff t.1) * inv * PP) ∧
        (∀ a ∈ l, ∃ t ∈ crtMerge p inv PP l (b :: m'), t.1 = a.1) ∧ (∀ c ∈ b :: m', ∃ t ∈ crtMerge p inv PP l (b :: m'), t.1 = c.1) := by
      intro b m' hmb hn hlt e
      have hbm : Canon comp (b :: m') := hmb ▸ hm
      obtain ⟨c1, c2, c3⟩ := canon_cons.1 hbm
      obtain ⟨i1, i2, i3, i4, i5⟩ := ih l m' hn hl c3
      have hk : ∀ t ∈ crtMerge p inv PP l m', t.1 < b.1 := by
        intro t ht
        rcases i2 t ht with ⟨a, ha, e⟩ | ⟨c, hc, e⟩
        · rw [← e]; exact hlt a ha
        · rw [← e]; exact c1 c hc
      rw [e]
      refine ⟨List.pairwise_cons.2 ⟨hk, i1⟩, ?_, ?_, ?_, ?_⟩
      · intro t ht
        rcases List.mem_cons.1 ht with rfl | ht
        · exact .inr ⟨b, by simp, rfl⟩
        · rcases i2 t ht with h | ⟨c, hc, e⟩
          · exact .inl h
          · exact .inr ⟨c, by simp [hc], e⟩
      · intro t ht
        rcases List.mem_cons.1 ht with rfl | ht
        · simp only
          have h1 : (toPoly (b :: m')).coeff b.1 = b.2 := coeff_mem (is_of_canon hbm) (by simp)
          have h2 : (toPoly l).coeff b.1 = 0 := coeff_not_mem (is_of_canon hl) fun a ha e => by have := hlt a ha; omega
          rw [h1, h2]
          ring
        · rw [coeff_cons_lt (l := m') (hk t ht)]; exact i3 t ht
      · intro a ha
        obtain ⟨t, ht, e⟩ := i4 a ha
        exact ⟨t, by simp [ht], e⟩
      · intro c hc
        rcases List.mem_cons.1 hc with rfl | hc
        · exact ⟨_, List.mem_cons_self, rfl⟩
        · obtain ⟨t, ht, e⟩ := i5 c hc
          exact ⟨t, by simp [ht], e⟩
    match l, m, hn, hl, hm, left, right with
    | [], [], hn, _, _, _, _ => rw [crtMerge]; simp
    | a :: l, [], hn, hl, _, left, _ => exact left a l (by simp at hn ⊢; omega) hl (by simp) (by rw [crtMerge])
    | [], b :: m, hn, hl, hm, _, right => exact right b m rfl (by simp at hn ⊢; omega) (by simp) (by rw [crtMerge])
    | a :: l, b :: m, hn, hl, hm, left, right =>
      simp only [List.length_cons] at hn
      obtain ⟨a1, a2, a3⟩ := canon_cons.1 hl
      obtain ⟨b1, b2, b3⟩ := canon_cons.1 hm
      rcases Nat.lt_trichotomy a.1 b.1 with hlt | heq | hgt
      · refine right b m rfl (by simp only [List.length_cons]; omega) ?_ (by rw [crtMerge]; simp [comp, hlt.le.not_gt, hlt.ne])
        intro c hc
        rcases List.mem_cons.1 hc with rfl | hc
        · exact hlt
        · exact (a1 c hc).trans hlt
      · have e : crtMerge p inv PP (a :: l) (b :: m) = (b.1, a.2 + ((b.2.val : ℤ) - a.2) * inv * PP) :: crtMerge p inv PP l m := by
          rw [crtMerge]; simp [comp, heq]
        obtain ⟨i1, i2, i3, i4, i5⟩ := ih l m (by omega) a3 b3
        have hk : ∀ t ∈ crtMerge p inv PP l m, t.1 < b.1 := by
          intro t ht
          rcases i2 t ht with ⟨c, hc, e⟩ | ⟨c, hc, e⟩
          · rw [← e, ← heq]; exact a1 c hc
          · rw [← e]; exact b1 c hc
        rw [e]
        refine ⟨List.pairwise_cons.2 ⟨hk, i1⟩, ?_, ?_, ?_, ?_⟩
        · intro t ht
          rcases List.mem_cons.1 ht with rfl | ht
          · exact .inr ⟨b, by simp, rfl⟩
          · rcases i2 t ht with ⟨c, hc, e⟩ | ⟨c, hc, e⟩
            · exact .inl ⟨c, by simp [hc], e⟩
            · exact .inr ⟨c, by simp [hc], e⟩
        · intro t ht
          rcases List.mem_cons.1 ht with rfl | ht
          · simp only
            have h1 : (toPoly (b :: m)).coeff b.1 = b.2 := coeff_mem (is_of_canon hm) (by simp)
            have h2 : (toPoly (a :: l)).coeff b.1 = a.2 := by rw [← heq]; exact coeff_mem (is_of_canon hl) (by simp)
            rw [h1, h2]
          · rw [coeff_cons_lt (l := m) (hk t ht), coeff_cons_lt (l := l) (heq ▸ hk t ht)]; exact i3 t ht
        · intro c hc
          rcases List.mem_cons.1 hc with rfl | hc
          · exact ⟨_, List.mem_cons_self, heq.symm⟩
          · obtain ⟨t, ht, e⟩ := i4 c hc
            exact ⟨t, by simp [ht], e⟩
        · intro c hc
          rcases List.mem_cons.1 hc with rfl | hc
          · exact ⟨_, List.mem_cons_self, rfl⟩
          · obtain ⟨t, ht, e⟩ := i5 c hc
            exact ⟨t, by simp [ht], e⟩
      · refine left a l (by simp only [List.length_cons]; omega) hl ?_ (by rw [crtMerge]; simp [comp, hgt])
        intro c hc
        rcases List.mem_cons.1 hc with rfl | hc
        · exact hgt
        · exact (b1 c hc).trans hgt

/-- the new accumulated image: congruent to the old one modulo `PP`, to the new one modulo `p`, symmetric residues, and no zero coefficient is stored -/
theorem crtStep_is {p : Nat} [hp : Fact p.Prime] {PP : ℤ} {l : UPoly ℤ} {m : UPoly (ZMod p)} {L : ℤ[X]} {M : (ZMod p)[X]} (hl : Is l L) (hm : Is m M)
    (hPP : 0 < PP) (hL : ∀ i, |L.coeff i| < PP) (hcop : ¬ (p : ℤ) ∣ PP) :
    ∃ T, Is (crtStep p PP l m) T ∧ (∀ i, PP ∣ T.coeff i - L.coeff i) ∧ T.map (Int.castRingHom (ZMod p)) = M ∧ (∀ i, 2 * |T.coeff i| ≤ PP * p) ∧
      ∀ i, T.coeff i ≠ 0 ↔ L.coeff i ≠ 0 ∨ M.coeff i ≠ 0 := by
  obtain ⟨inv, hinv⟩ : ∃ inv : ℤ, inv = (((PP : ZMod p)⁻¹).val : ℤ) := ⟨_, rfl⟩
  have hP0 : (PP : ZMod p) ≠ 0 := by rwa [Ne, ZMod.intCast_zmod_eq_zero_iff_dvd] 
  have hinv1 : (inv : ZMod p) * (PP : ZMod p) = 1 := by
    rw [hinv]; simp [hP0]
  have hp0 : (0 : ℤ) < p := by exact_mod_cast hp.out.pos
  obtain ⟨i1, i2, i3, i4, i5⟩ := crtMerge_spec inv PP _ l m le_rfl hl.canon hm.canon
  rw [hl.eq, hm.eq] at i3
  have e : crtStep p PP l m = (crtMerge p inv PP l m).map fun t => (t.1, symRed (PP * p) t.2) := by rw [crtStep, hinv]
  have hMp : 0 < PP * p := mul_pos hPP hp0
  have prop : ∀ t ∈ crtMerge p inv PP l m, PP ∣ symRed (PP * p) t.2 - L.coeff t.1 ∧ ((symRed (PP * p) t.2 : ℤ) : ZMod p) = M.coeff t.1 ∧
      2 * |symRed (PP * p) t.2| ≤ PP * p := by
    intro t ht
    obtain ⟨s1, s2⟩ := symRed_spec hMp t.2
    have h3 := i3 t ht
    refine ⟨?_, ?_, s2⟩
    · have h4 : PP ∣ symRed (PP * p) t.2 - t.2 := (dvd_mul_right PP (p : ℤ)).trans s1
      have h5 : PP ∣ t.2 - L.coeff t.1 := ⟨(((M.coeff t.1).val : ℤ) - L.coeff t.1) * inv, by rw [h3]; ring⟩
      have := dvd_add h4 h5
      rwa [sub_add_sub_cancel] at this
    · have h4 : (p : ℤ) ∣ symRed (PP * p) t.2 - t.2 := (dvd_mul_left (p : ℤ) PP).trans s1
      have h5 : ((symRed (PP * p) t.2 : ℤ) : ZMod p) = ((t.2 : ℤ) : ZMod p) := by
        rw [← sub_eq_zero, ← Int.cast_sub, ZMod.intCast_zmod_eq_zero_iff_dvd]; exact h4
      rw [h5, h3]
      push_cast
      rw [mul_assoc, hinv1, mul_one, ZMod.natCast_val, ZMod.cast_id', id]
      ring
  have nz : ∀ t ∈ crtMerge p inv PP l m, symRed (PP * p) t.2 ≠ 0 := by
    intro t ht h0
    obtain ⟨p1, p2, _⟩ := prop t ht
    rw [h0] at p1 p2
    rcases i2 t ht with ⟨a, ha, e⟩ | ⟨b, hb, e⟩
    · have h1 := coeff_mem hl ha
      have h2 := hl.canon.2 a ha
      rw [e] at h1
      rw [h1, zero_sub, dvd_neg] at p1
      have h3 := hL t.1
      rw [h1] at h3
      exact absurd (Int.le_of_dvd (abs_pos.2 h2) ((dvd_abs _ _).2 p1)) (by omega)
    · have h1 := coeff_mem hm hb
      have h2 := hm.canon.2 b hb
      rw [e] at h1
      rw [h1, Int.cast_zero] at p2
      exact h2 p2.symm
  have hcan : Canon comp (crtStep p PP l m) := by
    rw [e]
    refine ⟨List.pairwise_map.2 (i1.imp fun {a b} h => by simpa [comp] using h), ?_⟩
    intro t ht
    obtain ⟨u, hu, rfl⟩ := List.mem_map.1 ht
    exact nz u hu
  have his := is_of_canon hcan
  have hcoef : ∀ i, (∃ t ∈ crtMerge p inv PP l m, t.1 = i ∧ (toPoly (crtStep p PP l m)).coeff i = symRed (PP * p) t.2) ∨
      (toPoly (crtStep p PP l m)).coeff i = 0 ∧ L.coeff i = 0 ∧ M.coeff i = 0 := by
    intro i
    by_cases hi : ∃ t ∈ crtMerge p inv PP l m, t.1 = i
    · obtain ⟨t, ht, rfl⟩ := hi
      left
      refine ⟨t, ht, rfl, ?_⟩
      have hmem : (t.1, symRed (PP * p) t.2) ∈ crtStep p PP l m := by rw [e]; exact List.mem_map.2 ⟨t, ht, rfl⟩
      exact coeff_mem his hmem
    · right
      refine ⟨coeff_not_mem his ?_, coeff_not_mem hl ?_, coeff_not_mem hm ?_⟩
      · intro t ht e1
        rw [e] at ht
        obtain ⟨u, hu, rfl⟩ := List.mem_map.1 ht
        exact hi ⟨u, hu, e1⟩
      · intro a ha e1
        obtain ⟨t, ht, e2⟩ := i4 a ha
        exact hi ⟨t, ht, e2.trans e1⟩
      · intro b hb e1
        obtain ⟨t, ht, e2⟩ := i5 b hb
        exact hi ⟨t, ht, e2.trans e1⟩
  refine ⟨_, his, ?_, ?_, ?_, ?_⟩
  · intro i
    rcases hcoef i with ⟨t, ht, rfl, h⟩ | ⟨h1, h2, h3⟩
    · rw [h]; exact (prop t ht).1
    · rw [h1, h2]; simp
  · ext i
    rw [coeff_map]
    rcases hcoef i with ⟨t, ht, rfl, h⟩ | ⟨h1, h2, h3⟩
    · rw [h]; exact (prop t ht).2.1
    · rw [h1, h3]; simp
  · intro i
    rcases hcoef i with ⟨t, ht, rfl, h⟩ | ⟨h1, h2, h3⟩
    · rw [h]; exact (prop t ht).2.2
    · rw [h1]; simp; positivity
  · intro i
    rcases hcoef i with ⟨t, ht, rfl, h⟩ | ⟨h1, h2, h3⟩
    · rw [h]
      refine ⟨fun _ => ?_, fun _ => nz t ht⟩
      rcases i2 t ht with ⟨a, ha, e⟩ | ⟨b, hb, e⟩
      · left; rw [← e, coeff_mem hl ha]; exact hl.canon.2 a ha
      · right; rw [← e, coeff_mem hm hb]; exact hm.canon.2 b hb
    · rw [h1, h2, h3]; simp

/-! ## the loop -/

/-- no common divisor has degree above `d` -/
def DegBound (F G : ℤ[X]) (d : ℤ) : Prop := ∀ E, E ∣ F → E ∣ G → (E.natDegree : ℤ) ≤ d

theorem natDegree_map_of_lc {p : Nat} {F : ℤ[X]} (h : ((F.leadingCoeff : ℤ) : ZMod p) ≠ 0) : (F.map (Int.castRingHom (ZMod p))).natDegree = F.natDegree ∧
    F.map (Int.castRingHom (ZMod p)) ≠ 0 ∧ (F.map (Int.castRingHom (ZMod p))).leadingCoeff = ((F.leadingCoeff : ℤ) : ZMod p) := by
  have h1 : (Int.castRingHom (ZMod p)) F.leadingCoeff ≠ 0 := h
  refine ⟨natDegree_map_of_leadingCoeff_ne_zero _ h1, fun e => ?_, leadingCoeff_map_of_leadingCoeff_ne_zero _ h1⟩
  have := leadingCoeff_map_of_leadingCoeff_ne_zero _ h1
  rw [e, leadingCoeff_zero] at this
  exact h1 this.symm

/-- the degree of the modular gcd bounds the degree of the true one -/
theorem degBound_mod {p : Nat} [hp : Fact p.Prime] {F G : ℤ[X]} {D : (ZMod p)[X]} (hF : ((F.leadingCoeff : ℤ) : ZMod p) ≠ 0)
    (hD : ∀ E, E ∣ F.map (Int.castRingHom (ZMod p)) → E ∣ G.map (Int.castRingHom (ZMod p)) → E ∣ D) (hD0 : D ≠ 0) : DegBound F G D.natDegree := by
  intro E h1 h2
  have hE : ((E.leadingCoeff : ℤ) : ZMod p) ≠ 0 := by
    obtain ⟨K, rfl⟩ := h1
    rw [leadingCoeff_mul, Int.cast_mul] at hF
    exact left_ne_zero_of_mul hF
  have := natDegree_le_of_dvd (hD _ (Polynomial.map_dvd _ h1) (Polynomial.map_dvd _ h2)) hD0
  rw [(natDegree_map_of_lc hE).1] at this
  exact_mod_cast this

/-- a primitive common divisor of maximal degree is a gcd -/
theorem isGcd_of_degBound {F G H : ℤ[X]} (pF : F.IsPrimitive) (h1 : H ∣ F) (h2 : H ∣ G) (hd : DegBound F G H.natDegree) : IsGcd H F G := by
  refine ⟨h1, h2, fun E e1 e2 => ?_⟩
  obtain ⟨D, hD⟩ : ∃ D, IsGcd D F G := by
    letI := UniqueFactorizationMonoid.toGCDMonoid ℤ[X]
    exact ⟨GCDMonoid.gcd F G, gcd_dvd_left _ _, gcd_dvd_right _ _, fun E h1 h2 => dvd_gcd h1 h2⟩
  obtain ⟨K, hK⟩ := hD.2.2 H h1 h2
  have hD0 : D ≠ 0 := fun h => pF.ne_zero (by have := hD.1; rw [h, zero_dvd_iff] at this; exact this)
  have hH0 : H ≠ 0 := by rintro rfl; rw [zero_mul] at hK; exact hD0 hK
  have hK0 : K ≠ 0 := by rintro rfl; rw [mul_zero] at hK; exact hD0 hK
  have hdeg := hd D hD.1 hD.2.1
  rw [hK, natDegree_mul hH0 hK0] at hdeg
  have hK1 : K.natDegree = 0 := by omega
  have hu : IsUnit K := by
    rw [eq_C_of_natDegree_eq_zero hK1]
    refine isUnit_C.2 (pF _ ?_)
    rw [← eq_C_of_natDegree_eq_zero hK1]
    exact (Dvd.intro_left _ hK.symm).trans hD.1
  have hDH : D ∣ H := by rw [hK]; exact hu.mul_right_dvd.2 dvd_rfl
  exact (hD.2.2 E e1 e2).trans hDH

/-- loop invariant -/
def GInv (F G : ℤ[X]) (s : GcdSt) : Prop :=
  s.d = 2 ^ 63 - 1 ∨ (0 ≤ s.d ∧ s.d < 2 ^ 63 - 1 ∧ DegBound F G s.d ∧ 0 < s.PP ∧ (∀ q : Nat, q.Prime → (q : ℤ) ∣ s.PP → s.prime < q) ∧
    ∃ P, Is s.pout P ∧ P ≠ 0 ∧ (P.natDegree : ℤ) = s.d ∧ ∀ i, |P.coeff i| < s.PP)

/-- what is assumed of `prev_prime_64`: a smaller prime -/
def PrevOK (prev : Nat → Option Nat) : Prop := ∀ n q, prev n = some q → q < n ∧ q.Prime

theorem tmod_eq_zero_iff (a : ℤ) (p : Nat) : Int.tmod a p = 0 ↔ ((a : ℤ) : ZMod p) = 0 := by
  rw [ZMod.intCast_zmod_eq_zero_iff_dvd, ← Int.dvd_iff_tmod_eq_zero]

theorem stepPrime_inv {prev : Nat → Option Nat} (hprev : PrevOK prev) {F G : ℤ[X]} {s s' : GcdSt}
    (hd : s.d = 2 ^ 63 - 1 ∨ (0 ≤ s.d ∧ s.d < 2 ^ 63 - 1 ∧ DegBound F G s.d ∧ 0 < s.PP ∧ (∀ q : Nat, q.Prime → (q : ℤ) ∣ s.PP → s.prime ≤ q) ∧
      ∃ P, Is s.pout P ∧ P ≠ 0 ∧ (P.natDegree : ℤ) = s.d ∧ ∀ i, |P.coeff i| < s.PP)) (h : stepPrime prev s = .next s') :
    GInv F G s' ∧ s'.prime < W ∨ ¬ s.prime < W := by
  unfold stepPrime at h
  cases e : prev s.prime with
  | none => rw [e] at h; simp at h
  | some q =>
    rw [e] at h
    simp only [GcdOut.next.injEq] at h
    subst h
    have hq := hprev _ _ e
    by_cases hW : s.prime < W
    · left
      refine ⟨?_, hq.1.trans hW⟩
      rcases hd with hd | ⟨a, b, c, d, e, f⟩
      · exact .inl hd
      · exact .inr ⟨a, b, c, d, fun r hr hrd => hq.1.trans_le (e r hr hrd), f⟩
    · exact .inr hW

theorem gcdRound_spec {prev : Nat → Option Nat} (hprev : PrevOK prev) {f g : UPoly ℤ} {F G : ℤ[X]} (hf : Is f F) (hg : Is g G) (pF : F.IsPrimitive) (pG : G.IsPrimitive)
    (lF : F.natDegree < 2 ^ 63 - 1) (lG : G.natDegree < 2 ^ 63 - 1) {c : ℤ} (hc : c ≠ 0) {s : GcdSt} (hW : s.prime < W) (hs : GInv F G s) :
    (∀ r, gcdRound prev f g c s = .ret r → ∃ H, Is r (C c * H) ∧ IsGcd H F G ∧ H.IsPrimitive) ∧
    (∀ s', gcdRound prev f g c s = .next s' → GInv F G s' ∧ s'.prime < W) := by
  have f0 := pF.ne_zero
  have g0 := pG.ne_zero
  have stepOK : ∀ s0 : GcdSt, s0.prime = s.prime → (s0.d = 2 ^ 63 - 1 ∨ (0 ≤ s0.d ∧ s0.d < 2 ^ 63 - 1 ∧ DegBound F G s0.d ∧ 0 < s0.PP ∧ (∀ q : Nat, q.Prime → (q : ℤ) ∣ s0.PP → s0.prime ≤ q) ∧
      ∃ P, Is s0.pout P ∧ P ≠ 0 ∧ (P.natDegree : ℤ) = s0.d ∧ ∀ i, |P.coeff i| < s0.PP)) →
      (∀ r, stepPrime prev s0 = .ret r → ∃ H, Is r (C c * H) ∧ IsGcd H F G ∧ H.IsPrimitive) ∧ (∀ s', stepPrime prev s0 = .next s' → GInv F G s' ∧ s'.prime < W) := by
    intro s0 hp0 h0
    refine ⟨?_, ?_⟩
    · intro r hr
      unfold stepPrime at hr
      split at hr <;> simp at hr
    · intro s' hs'
      rcases stepPrime_inv hprev h0 hs' with h | h
      · exact h
      · rw [hp0] at h; exact absurd hW h
  have weak : s.d = 2 ^ 63 - 1 ∨ (0 ≤ s.d ∧ s.d < 2 ^ 63 - 1 ∧ DegBound F G s.d ∧ 0 < s.PP ∧ (∀ q : Nat, q.Prime → (q : ℤ) ∣ s.PP → s.prime ≤ q) ∧
      ∃ P, Is s.pout P ∧ P ≠ 0 ∧ (P.natDegree : ℤ) = s.d ∧ ∀ i, |P.coeff i| < s.PP) := by
    rcases hs with h | ⟨a, b, c, d, e, f⟩
    · exact .inl h
    · exact .inr ⟨a, b, c, d, fun q h1 h2 => (e q h1 h2).le, f⟩
  unfold gcdRound
  by_cases h1 : Int.tmod (lc f) s.prime = 0 ∨ Int.tmod (lc g) s.prime = 0
  · rw [if_pos h1]; exact stepOK s rfl weak
  rw [if_neg h1]
  by_cases hp : s.prime.Prime
  swap
  · rw [dif_neg hp]; exact ⟨by simp, by simp⟩
  rw [dif_pos hp]
  haveI := Fact.mk hp
  rw [not_or, tmod_eq_zero_iff, tmod_eq_zero_iff, is_lc hf, is_lc hg] at h1
  obtain ⟨nF, zF, cF⟩ := natDegree_map_of_lc h1.1
  obtain ⟨nG, zG, cG⟩ := natDegree_map_of_lc h1.2
  have hlcg : (((Int.gcd (lc f) (lc g) : ℕ) : ℤ) : ZMod s.prime) ≠ 0 := by
    intro h
    rw [ZMod.intCast_zmod_eq_zero_iff_dvd, is_lc hf, is_lc hg] at h
    exact h1.1 ((ZMod.intCast_zmod_eq_zero_iff_dvd _ _).2 (h.trans (Int.gcd_dvd_left ..)))
  have hW63 : 2 ^ 63 < W := by norm_num [W]
  obtain ⟨D, d1, d2, d3, d4⟩ := gcdScaled_is hW (polyMod_is (p := s.prime) hg) (polyMod_is (p := s.prime) hf) zG zF (by rw [nG]; omega) (by rw [nF]; omega) hlcg s.d
  have hD0 : D ≠ 0 := by rintro rfl; rw [leadingCoeff_zero] at d2; exact hlcg d2.symm
  have hDdeg : D.natDegree < 2 ^ 63 - 1 := (natDegree_le_of_dvd d1.1 zF).trans_lt (by rw [nF]; exact lF)
  have hDB : DegBound F G D.natDegree := degBound_mod h1.1 (fun E e1 e2 => d1.2.2 E e1 e2) hD0
  cases e : gcdScaled s.prime (polyMod s.prime f) (polyMod s.prime g) (((Int.gcd (lc f) (lc g) : ℕ) : ℤ) : ZMod s.prime) s.d with
  | none => exact stepOK s rfl weak
  | some pm =>
    simp only
    have hpm := d4 pm e
    have hle : ¬ s.d < D.natDegree := fun h => by rw [d3.2 h] at e; simp at e
    rw [is_deg hpm]
    have hp0 : (0 : ℤ) < s.prime := by exact_mod_cast hp.pos
    by_cases h2 : (D.natDegree : ℤ) < s.d
    · rw [if_pos h2]
      obtain ⟨P, l1, l2, l3, l4⟩ := liftFirst_is hpm
      refine stepOK _ rfl (.inr ⟨by positivity, by simp only; omega, hDB, hp0, ?_, P, l1, ?_, by simp only; exact_mod_cast l3, l4⟩)
      · intro q hq hqd
        have : q ∣ s.prime := Int.natCast_dvd_natCast.1 hqd
        exact ((Nat.prime_dvd_prime_iff_eq hq hp).1 this).ge
      · rintro rfl; rw [Polynomial.map_zero] at l2; exact hD0 l2.symm
    · rw [if_neg h2]
      have hsd : s.d = D.natDegree := by omega
      rcases hs with hs | ⟨_, _, _, s4, s5, P, s6, s7, s8, s9⟩
      · exfalso; rw [hs] at hsd; omega
      have hcop : ¬ (s.prime : ℤ) ∣ s.PP := fun h => lt_irrefl _ (s5 _ hp h)
      obtain ⟨T, t1, t2, t3, t4, t5⟩ := crtStep_is s6 hpm s4 s9 hcop
      have hTd : T.natDegree = D.natDegree ∧ T ≠ 0 := by
        have hlead : T.coeff D.natDegree ≠ 0 := (t5 _).2 (.inr (leadingCoeff_ne_zero.2 hD0))
        refine ⟨le_antisymm ?_ (le_natDegree_of_ne_zero hlead), fun h => by rw [h] at hlead; simp at hlead⟩
        refine natDegree_le_iff_coeff_eq_zero.2 fun N hN => ?_
        by_contra hne
        rcases (t5 N).1 hne with h | h
        · exact h (coeff_eq_zero_of_natDegree_lt (by omega))
        · exact h (coeff_eq_zero_of_natDegree_lt hN)
      have hPPn : 0 < s.PP * s.prime := mul_pos s4 hp0
      have hprimes : ∀ q : Nat, q.Prime → (q : ℤ) ∣ s.PP * s.prime → s.prime ≤ q := by
        intro q hq hqd
        rcases Int.Prime.dvd_mul' hq hqd with h | h
        · exact (s5 q hq h).le
        · have : q ∣ s.prime := by exact_mod_cast h
          exact ((Nat.prime_dvd_prime_iff_eq hq hp).1 this).ge
      have hbnd : ∀ i, |T.coeff i| < s.PP * s.prime := fun i => by have := t4 i; omega
      have hd63 : s.d < 2 ^ 63 - 1 := by omega
      have hd0 : 0 ≤ s.d := by rw [hsd]; positivity
      by_cases h3 : crtStep s.prime s.PP s.pout pm = s.pout
      · rw [if_pos h3]
        have hTP : T = P := by rw [← t1.eq, h3, s6.eq]
        by_cases h4 : s.d > 0
        · rw [if_pos h4, h3]
          obtain ⟨Q, q1, q2⟩ := exists_prim s6 s7
          have hcont := cont_ne_zero s6 s7
          have hCis : Is ([(0, cont s.pout)] : UPoly ℤ) (C (cont s.pout)) :=
            ⟨canon_cons.2 ⟨by simp, hcont, canon_nil⟩, by rw [toPoly_cons]; simp⟩
          obtain ⟨q, e1, e2⟩ := divQ_exact (F := Q) (by rw [mul_comm, ← q1]; exact s6) hCis (by simpa using hcont) divZ_div divZ_exact
          rw [e1]
          simp only
          have hQ0 : Q ≠ 0 := q2.ne_zero
          have hQd : Q.natDegree = D.natDegree := by
            have : P.natDegree = Q.natDegree := by rw [q1, natDegree_C_mul hcont]
            omega
          by_cases h5 : divides q f = true ∧ divides q g = true
          · rw [if_pos h5]
            refine ⟨fun r hr => ?_, by simp⟩
            simp only [GcdOut.ret.injEq] at hr
            subst hr
            have hcis : Is ([(0, c)] : UPoly ℤ) (C c) := ⟨canon_cons.2 ⟨by simp, hc, canon_nil⟩, by rw [toPoly_cons]; simp⟩
            refine ⟨Q, by rw [mul_comm]; exact mul_is e2 hcis, isGcd_of_degBound pF ((divides_iff e2 hf hQ0).1 h5.1) ((divides_iff e2 hg hQ0).1 h5.2) ?_, q2⟩
            rw [hQd]; exact hDB
          · rw [if_neg h5]
            refine stepOK _ rfl (.inr ⟨hd0, hd63, by simp only; rw [hsd]; exact hDB, hPPn, hprimes, Q, e2, hQ0, by simp only; omega, fun i => ?_⟩)
            have hi := hbnd i
            rw [hTP, q1, coeff_C_mul, abs_mul] at hi
            have : 1 ≤ |cont s.pout| := Int.one_le_abs hcont
            simp only
            nlinarith [abs_nonneg (Q.coeff i)]
        · rw [if_neg h4]
          refine ⟨fun r hr => ?_, by simp⟩
          simp only [GcdOut.ret.injEq] at hr
          subst hr
          refine ⟨1, ⟨canon_cons.2 ⟨by simp, hc, canon_nil⟩, by rw [toPoly_cons]; simp⟩, isGcd_of_degBound pF (one_dvd _) (one_dvd _) ?_, isPrimitive_one⟩
          rw [natDegree_one]
          have : D.natDegree = 0 := by omega
          rw [this] at hDB
          exact hDB
      · rw [if_neg h3]
        exact stepOK _ rfl (.inr ⟨hd0, hd63, by simp only; rw [hsd]; exact hDB, hPPn, hprimes, T, t1, hTd.2, by simp only; rw [hTd.1]; exact hsd.symm, hbnd⟩)

theorem gcdLoop_spec {prev : Nat → Option Nat} (hprev : PrevOK prev) {f g : UPoly ℤ} {F G : ℤ[X]} (hf : Is f F) (hg : Is g G) (pF : F.IsPrimitive) (pG : G.IsPrimitive)
    (lF : F.natDegree < 2 ^ 63 - 1) (lG : G.natDegree < 2 ^ 63 - 1) {c : ℤ} (hc : c ≠ 0) (fuel : Nat) : ∀ s : GcdSt, s.prime < W → GInv F G s →
    ∀ r, gcdLoop prev f g c fuel s = some r → ∃ H, Is r (C c * H) ∧ IsGcd H F G ∧ H.IsPrimitive := by
  induction fuel with
  | zero => intro s _ _ r h; simp [gcdLoop] at h
  | succ fuel ih =>
    intro s hW hs r h
    obtain ⟨h1, h2⟩ := gcdRound_spec hprev hf hg pF pG lF lG hc hW hs
    rw [gcdLoop] at h
    cases e : gcdRound prev f g c s with
    | ret r' => rw [e] at h; simp only [Option.some.injEq] at h; subst h; exact h1 _ e
    | next s' => rw [e] at h; exact ih s' (h2 _ e).2 (h2 _ e).1 r h
    | fail => rw [e] at h; simp at h

/-! ## single terms -/

theorem dvd_monomial_gcd {k : Nat} {c : ℤ} {g : UPoly ℤ} {G : ℤ[X]} (hg : Is g G) (hk : ∀ t ∈ g, k ≤ t.1) (hc : ∀ t ∈ g, c ∣ t.2) : monomial k c ∣ G := by
  rw [← hg.eq]
  unfold toPoly
  refine List.dvd_sum fun x hx => ?_
  obtain ⟨t, ht, rfl⟩ := List.mem_map.1 hx
  obtain ⟨d, hd⟩ := hc t ht
  refine ⟨monomial (t.1 - k) d, ?_⟩
  rw [monomial_mul_monomial, ← hd, Nat.add_sub_cancel' (hk t ht)]

theorem gcdMono_fold (l : UPoly ℤ) (t : Nat × ℤ) :
    (∀ j, j ≤ (l.foldl (fun (a : Nat × ℤ) u => (min a.1 u.1, (Int.gcd a.2 u.2 : ℤ))) t).1 ↔ j ≤ t.1 ∧ ∀ u ∈ l, j ≤ u.1) ∧
    (∀ d : ℤ, d ∣ (l.foldl (fun (a : Nat × ℤ) u => (min a.1 u.1, (Int.gcd a.2 u.2 : ℤ))) t).2 ↔ d ∣ t.2 ∧ ∀ u ∈ l, d ∣ u.2) := by
  induction l generalizing t with
  | nil => simp
  | cons u l ih =>
    rw [List.foldl_cons]
    obtain ⟨h1, h2⟩ := ih (min t.1 u.1, (Int.gcd t.2 u.2 : ℤ))
    refine ⟨fun j => ?_, fun d => ?_⟩
    · rw [h1]; simp only [le_min_iff, List.mem_cons, forall_eq_or_imp]; tauto
    · rw [h2, Int.dvd_coe_gcd_iff]; simp only [List.mem_cons, forall_eq_or_imp]; tauto

theorem X_pow_dvd_iff_terms {f : UPoly ℤ} {F : ℤ[X]} (hf : Is f F) (j : Nat) : X ^ j ∣ F ↔ ∀ t ∈ f, j ≤ t.1 := by
  rw [X_pow_dvd_iff]
  constructor
  · intro h t ht
    by_contra hc
    have := h t.1 (by omega)
    rw [coeff_mem hf ht] at this
    exact hf.canon.2 t ht this
  · intro h d hd
    exact coeff_not_mem hf fun t ht e => by have := h t ht; omega

theorem gcdMono_is {f g : UPoly ℤ} {F G : ℤ[X]} (hf : Is f F) (hg : Is g G) (f0 : F ≠ 0) (g0 : G ≠ 0) (h1 : f.length = 1 ∨ g.length = 1) :
    ∃ D, Is (gcdMono g f) D ∧ IsGcd D G F := by
  cases f with
  | nil => exact absurd ((is_nil_iff hf).1 rfl) f0
  | cons t l =>
    obtain ⟨k1, k2⟩ := gcdMono_fold (l ++ g) t
    obtain ⟨a, ha⟩ : ∃ a, a = (l ++ g).foldl (fun (a : Nat × ℤ) u => (min a.1 u.1, (Int.gcd a.2 u.2 : ℤ))) t := ⟨_, rfl⟩
    rw [← ha] at k1 k2
    have e : gcdMono g (t :: l) = [a] := by rw [ha]; rfl
    have m1 := (k1 a.1).1 le_rfl
    have m2 := (k2 a.2).1 dvd_rfl
    have t0 : t.2 ≠ 0 := hf.canon.2 t (by simp)
    have a0 : a.2 ≠ 0 := fun h => by rw [h] at m2; exact t0 (zero_dvd_iff.1 m2.1)
    rw [e]
    refine ⟨monomial a.1 a.2, ⟨canon_cons.2 ⟨by simp, a0, canon_nil⟩, by rw [toPoly_cons]; simp⟩, ?_, ?_, ?_⟩
    · exact dvd_monomial_gcd hg (fun u hu => m1.2 u (by simp [hu])) (fun u hu => m2.2 u (by simp [hu]))
    · refine dvd_monomial_gcd hf (fun u hu => ?_) (fun u hu => ?_)
      · rcases List.mem_cons.1 hu with rfl | hu
        · exact m1.1
        · exact m1.2 u (by simp [hu])
      · rcases List.mem_cons.1 hu with rfl | hu
        · exact m2.1
        · exact m2.2 u (by simp [hu])
    · intro E e1 e2
      have eE := E.eq_C_content_mul_primPart
      -- one of the polynomials is a single term
      obtain ⟨b, m, b0, hbm⟩ : ∃ (b : ℤ) (m : Nat), b ≠ 0 ∧ E ∣ C b * X ^ m := by
        have single : ∀ {h : UPoly ℤ} {H : ℤ[X]}, Is h H → h.length = 1 → E ∣ H → ∃ (b : ℤ) (m : Nat), b ≠ 0 ∧ E ∣ C b * X ^ m := by
          intro h H hh hl hE
          obtain ⟨u, rfl⟩ := List.length_eq_one_iff.1 hl
          refine ⟨u.2, u.1, hh.canon.2 u (by simp), ?_⟩
          rw [C_mul_X_pow_eq_monomial]
          have : H = monomial u.1 u.2 := by rw [← hh.eq, toPoly_cons]; simp
          rwa [← this]
        rcases h1 with h1 | h1
        · exact single hf h1 e2
        · exact single hg h1 e1
      have hp : E.primPart ∣ X ^ m := prim_dvd_of_dvd_C_mul E.isPrimitive_primPart b0 ((primPart_dvd E).trans hbm)
      obtain ⟨j, _, hj⟩ := (dvd_prime_pow prime_X m).1 hp
      have hj1 : j ≤ a.1 := by
        rw [k1]
        have hxf : X ^ j ∣ F := hj.symm.dvd.trans ((primPart_dvd E).trans e2)
        have hxg : X ^ j ∣ G := hj.symm.dvd.trans ((primPart_dvd E).trans e1)
        rw [X_pow_dvd_iff_terms hf] at hxf
        rw [X_pow_dvd_iff_terms hg] at hxg
        refine ⟨hxf t (by simp), fun u hu => ?_⟩
        rcases List.mem_append.1 hu with hu | hu
        · exact hxf u (by simp [hu])
        · exact hxg u hu
      have hc1 : E.content ∣ a.2 := by
        rw [k2]
        have hxf : C E.content ∣ F := (C_content_dvd E).trans e2
        have hxg : C E.content ∣ G := (C_content_dvd E).trans e1
        rw [C_dvd_iff hf] at hxf
        rw [C_dvd_iff hg] at hxg
        refine ⟨hxf t (by simp), fun u hu => ?_⟩
        rcases List.mem_append.1 hu with hu | hu
        · exact hxf u (by simp [hu])
        · exact hxg u hu
      rw [eE, ← C_mul_X_pow_eq_monomial]
      exact mul_dvd_mul (C_dvd_C.2 hc1) (hj.dvd.trans (pow_dvd_pow X hj1))

/-! ## the whole function -/

theorem isGcd_swap {F G D : ℤ[X]} (h : IsGcd D F G) : IsGcd D G F := ⟨h.2.1, h.1, fun E a b => h.2.2 E b a⟩

/-- whatever `polynomial_GCD` returns is a greatest common divisor -/
theorem gcdZ_spec {prev : Nat → Option Nat} (hprev : PrevOK prev) {f g : UPoly ℤ} {F G : ℤ[X]} (hf : Is f F) (hg : Is g G)
    (lF : F.natDegree < 2 ^ 63 - 1) (lG : G.natDegree < 2 ^ 63 - 1) {fuel : Nat} {r : UPoly ℤ} (h : gcdZ prev fuel g f = some r) :
    ∃ D, Is r D ∧ IsGcd D G F := by
  unfold gcdZ at h
  by_cases f0 : f = []
  · rw [if_pos f0] at h
    cases h
    refine ⟨G, hg, dvd_rfl, ?_, fun E h1 _ => h1⟩
    rw [(is_nil_iff hf).1 f0]; exact dvd_zero _
  rw [if_neg f0] at h
  by_cases g0 : g = []
  · rw [if_pos g0] at h
    cases h
    refine ⟨F, hf, ?_, dvd_rfl, fun E _ h2 => h2⟩
    rw [(is_nil_iff hg).1 g0]; exact dvd_zero _
  rw [if_neg g0] at h
  have F0 : F ≠ 0 := fun e => f0 ((is_nil_iff hf).2 e)
  have G0 : G ≠ 0 := fun e => g0 ((is_nil_iff hg).2 e)
  by_cases h1 : f.length = 1 ∨ g.length = 1
  · rw [if_pos h1] at h
    cases h
    exact gcdMono_is hf hg F0 G0 h1
  rw [if_neg h1] at h
  simp only at h
  obtain ⟨F', f1, f2, f3⟩ := divCont_is hf F0
  obtain ⟨G', g1, g2, g3⟩ := divCont_is hg G0
  have cf := cont_ne_zero hf F0
  have cg := cont_ne_zero hg G0
  have hc0 : ((Int.gcd (cont f) (cont g) : ℕ) : ℤ) ≠ 0 := by
    intro e
    have : Int.gcd (cont f) (cont g) = 0 := by exact_mod_cast e
    exact cf (Int.gcd_eq_zero_iff.1 this).1
  have fin : ∀ H, IsGcd H F' G' → IsGcd (C ((Int.gcd (cont f) (cont g) : ℕ) : ℤ) * H) G F := by
    intro H hH
    have := isGcd_of_prim cf cg f3 g3 hH
    rw [← f2, ← g2] at this
    exact isGcd_swap this
  cases e : gcdheu (divCont f) (divCont g) with
  | some hh =>
    rw [e] at h
    simp only [Option.some.injEq] at h
    obtain ⟨H, a1, a2, a3, a4⟩ := gcdheu_spec f1 g1 f3 g3 e
    refine ⟨_, ?_, fin H a4⟩
    rw [← h]
    split
    · exact map_mul_is a1 hc0
    · rename_i hne
      rw [not_not] at hne
      rw [hne, C_1, one_mul]; exact a1
  | none =>
    rw [e] at h
    simp only at h
    have lF' : F'.natDegree < 2 ^ 63 - 1 := by rw [f2, natDegree_C_mul cf] at lF; exact lF
    have lG' : G'.natDegree < 2 ^ 63 - 1 := by rw [g2, natDegree_C_mul cg] at lG; exact lG
    obtain ⟨H, a1, a2, _⟩ := gcdLoop_spec hprev f1 g1 f3 g3 lF' lG' hc0 fuel _ (by norm_num [firstPrime, W]) (.inl rfl) r h
    exact ⟨_, a1, fin H a2⟩

end Upoly
end CLPoly
