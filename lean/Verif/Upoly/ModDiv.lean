import Verif.Upoly.FactorZArith
import Verif.Upoly.GcdZ

/-! # Division with remainder modulo an integer

`Cong m F G`: all coefficients of `F - G` are divisible by `m`. -/

namespace CLPoly
namespace Upoly
open Polynomial

/-- congruence of polynomials modulo an integer -/
def Cong (m : ℤ) (F G : ℤ[X]) : Prop := C m ∣ F - G

namespace Cong
variable {m : ℤ} {F G H K : ℤ[X]}

theorem rfl' : Cong m F F := by unfold Cong; simp
theorem of_eq (h : F = G) : Cong m F G := h ▸ rfl'
theorem symm (h : Cong m F G) : Cong m G F := by
  unfold Cong at *
  have : G - F = -(F - G) := by ring
  rw [this]
  exact (dvd_neg).2 h
theorem trans (h : Cong m F G) (h' : Cong m G H) : Cong m F H := by
  unfold Cong at *
  have : F - H = (F - G) + (G - H) := by ring
  rw [this]
  exact dvd_add h h'
theorem add (h : Cong m F G) (h' : Cong m H K) : Cong m (F + H) (G + K) := by
  unfold Cong at *
  have : F + H - (G + K) = (F - G) + (H - K) := by ring
  rw [this]
  exact dvd_add h h'
theorem sub (h : Cong m F G) (h' : Cong m H K) : Cong m (F - H) (G - K) := by
  unfold Cong at *
  have : F - H - (G - K) = (F - G) - (H - K) := by ring
  rw [this]
  exact dvd_sub h h'
theorem mul (h : Cong m F G) (h' : Cong m H K) : Cong m (F * H) (G * K) := by
  unfold Cong at *
  have : F * H - G * K = (F - G) * H + G * (H - K) := by ring
  rw [this]
  exact dvd_add (dvd_mul_of_dvd_left h _) (dvd_mul_of_dvd_right h' _)
theorem of_dvd {n : ℤ} (hn : n ∣ m) (h : Cong m F G) : Cong n F G := (C_dvd_C.2 hn).trans h
/-- multiplication by `n` sharpens the modulus -/
theorem scale (n : ℤ) (h : Cong m F G) : Cong (n * m) (C n * F) (C n * G) := by
  unfold Cong at *
  have : C n * F - C n * G = C n * (F - G) := by ring
  rw [this, C_mul]
  exact mul_dvd_mul_left _ h
theorem iff_coeff : Cong m F G ↔ ∀ i, m ∣ F.coeff i - G.coeff i := by
  unfold Cong
  rw [C_dvd_iff_dvd_coeff]
  simp

theorem iff_map {p : Nat} : Cong p F G ↔ F.map (Int.castRingHom (ZMod p)) = G.map (Int.castRingHom (ZMod p)) := by
  rw [iff_coeff, Polynomial.ext_iff]
  refine forall_congr' fun i => ?_
  rw [coeff_map, coeff_map, eq_intCast, eq_intCast, ← ZMod.intCast_zmod_eq_zero_iff_dvd, Int.cast_sub, sub_eq_zero]
end Cong

/-- coefficients in `[0, m)` -/
def Red (m : ℤ) (F : ℤ[X]) : Prop := ∀ i, 0 ≤ F.coeff i ∧ F.coeff i < m

theorem red_zero {m : ℤ} (hm : 0 < m) : Red m 0 := fun i => by simp [hm]

/-- reduced polynomials congruent modulo `m` are equal -/
theorem Red.eq {m : ℤ} {F G : ℤ[X]} (hF : Red m F) (hG : Red m G) (h : Cong m F G) : F = G := by
  ext i
  have := Int.eq_zero_of_abs_lt_dvd (Cong.iff_coeff.1 h i) (by
    have := hF i; have := hG i
    rw [abs_lt]; constructor <;> omega)
  omega

/-- a map on coefficients that removes zero terms -/
theorem filterMap_is {R : Type*} [CommRing R] [DecidableEq R] {φ : ℤ → R} (φ0 : φ 0 = 0) {f : UPoly ℤ} {F : ℤ[X]} (h : Is f F) :
    ∃ H, Is (f.filterMap fun t => if φ t.2 ≠ 0 then some (t.1, φ t.2) else none) H ∧ ∀ i, H.coeff i = φ (F.coeff i) := by
  obtain ⟨hc, rfl⟩ := h
  induction f with
  | nil => exact ⟨0, nil_is, fun i => by simp [φ0]⟩
  | cons t l ih =>
    obtain ⟨h1, h2, h3⟩ := canon_cons.1 hc
    obtain ⟨H, hH, e⟩ := ih h3
    have hz : (toPoly l).coeff t.1 = 0 := coeff_eq_zero_of_degree_lt (toPoly_degree_lt h1)
    have hmem : ∀ u ∈ l.filterMap (fun t => if φ t.2 ≠ 0 then some (t.1, φ t.2) else none), u.1 < t.1 := by
      intro u hu
      obtain ⟨v, hv, e⟩ := List.mem_filterMap.1 hu
      split at e
      · simp only [Option.some.injEq] at e; rw [← e]; exact h1 v hv
      · simp at e
    rw [List.filterMap_cons]
    by_cases hz' : φ t.2 = 0
    · rw [if_neg (by simpa using hz')]
      refine ⟨H, hH, fun i => ?_⟩
      rw [e, toPoly_cons, coeff_add, coeff_monomial]
      split
      · next hi => subst hi; rw [hz, φ0, add_zero, hz']
      · rw [zero_add]
    · rw [if_pos hz']
      refine ⟨monomial t.1 (φ t.2) + H, ⟨canon_cons.2 ⟨hmem, hz', hH.canon⟩, ?_⟩, fun i => ?_⟩
      · rw [toPoly_cons, hH.eq]
      · rw [coeff_add, coeff_monomial, toPoly_cons, coeff_add, coeff_monomial, e]
        split
        · next hi => subst hi; rw [hz, φ0, add_zero, add_zero]
        · rw [zero_add, zero_add]

theorem fmod_pos (a : ℤ) {m : ℤ} (hm : 0 < m) : Int.fmod a m = a % m := Int.fmod_eq_emod_of_nonneg a hm.le

theorem modCoeff_is {m : ℤ} (hm : 0 < m) {f : UPoly ℤ} {F : ℤ[X]} (h : Is f F) : ∃ H, Is (modCoeff m f) H ∧ (∀ i, H.coeff i = F.coeff i % m) ∧ Cong m H F ∧ Red m H := by
  obtain ⟨H, h1, h2⟩ := filterMap_is (φ := fun c => Int.fmod c m) (by simp) h
  have h3 : ∀ i, H.coeff i = F.coeff i % m := fun i => by rw [h2, fmod_pos _ hm]
  refine ⟨H, h1, h3, Cong.iff_coeff.2 fun i => ?_, fun i => ?_⟩
  · rw [h3]
    exact ⟨-(F.coeff i / m), by linear_combination Int.emod_add_mul_ediv (F.coeff i) m⟩
  · rw [h3]
    exact ⟨Int.emod_nonneg _ hm.ne', Int.emod_lt_of_pos _ hm⟩

theorem polySymMod_is {m : ℤ} (hm : 0 < m) {f : UPoly ℤ} {F : ℤ[X]} (h : Is f F) : ∃ H, Is (polySymMod m f) H ∧ ∀ i, H.coeff i = symMod (F.coeff i) m :=
  filterMap_is (φ := fun c => symMod c m) (symMod_unique hm (by simp) (by omega) (by omega)) h

theorem divRed_is {m k : ℤ} (hm : 0 < m) (hk : 0 < k) {f : UPoly ℤ} {F E : ℤ[X]} (h : Is f F) (hE : F = C m * E) :
    ∃ H, Is (divRed m k f) H ∧ Cong k H E ∧ Red k H := by
  obtain ⟨H, h1, h2⟩ := filterMap_is (φ := fun c => Int.fmod (Int.fdiv c m) k) (by simp) h
  have h3 : ∀ i, H.coeff i = E.coeff i % k := fun i => by
    rw [h2, fmod_pos _ hk, hE, coeff_C_mul, Int.mul_comm, Int.mul_fdiv_cancel _ hm.ne']
  refine ⟨H, h1, Cong.iff_coeff.2 fun i => ?_, fun i => ?_⟩
  · rw [h3]
    exact ⟨-(E.coeff i / k), by linear_combination Int.emod_add_mul_ediv (E.coeff i) k⟩
  · rw [h3]
    exact ⟨Int.emod_nonneg _ hk.ne', Int.emod_lt_of_pos _ hk⟩

theorem invertZ_spec {a m : ℤ} (hm : 1 < m) (h : IsCoprime a m) : ∃ v, invertZ a m = some v ∧ m ∣ a * v - 1 ∧ 0 ≤ v ∧ v < m := by
  unfold invertZ
  have hg : Int.gcd a m = 1 := Int.isCoprime_iff_gcd_eq_one.1 h
  rw [if_pos hg]
  refine ⟨_, rfl, ?_, Int.emod_nonneg _ (by omega), Int.emod_lt_of_pos _ (by omega)⟩
  have e := Int.gcd_eq_gcd_ab a m
  rw [hg] at e
  have e2 := Int.emod_add_mul_ediv (Int.gcdA a m) m
  exact ⟨-(Int.gcdB a m) - a * (Int.gcdA a m / m), by push_cast at e; linear_combination a * e2 - e⟩

/-! ## the inner step -/

theorem consNZ_is {k : Nat} {c : ℤ} {l : UPoly ℤ} {L : ℤ[X]} (h : Is l L) (hk : ∀ u ∈ l, u.1 < k) : Is (consNZ k c l) (monomial k c + L) := by
  unfold consNZ
  split
  · next hc => exact ⟨canon_cons.2 ⟨hk, hc, h.canon⟩, by rw [toPoly_cons, h.eq]⟩
  · next hc =>
    have : c = 0 := by simpa using hc
    subst this
    simpa using h

theorem consNZ_lt {k n : Nat} {c : ℤ} {l : UPoly ℤ} (hk : k < n) (h : ∀ u ∈ l, u.1 < n) : ∀ u ∈ consNZ k c l, u.1 < n := by
  intro u hu
  unfold consNZ at hu
  split at hu
  · rcases List.mem_cons.1 hu with rfl | h'
    · exact hk
    · exact h u h'
  · exact h u hu

theorem cong_monomial {m c c' : ℤ} {k : Nat} (h : m ∣ c - c') : Cong m (monomial k c) (monomial k c') := by
  rw [Cong.iff_coeff]
  intro i
  rw [coeff_monomial, coeff_monomial]
  split
  · exact h
  · simp

theorem red_monomial_add {m c : ℤ} {k : Nat} {L : ℤ[X]} (h : Red m L) (h0 : L.coeff k = 0) (hc : 0 ≤ c ∧ c < m) : Red m (monomial k c + L) := by
  intro i
  rw [coeff_add, coeff_monomial]
  split
  · next hi => subst hi; rw [h0, add_zero]; exact hc
  · rw [zero_add]; exact h i

theorem coeff_lt_zero {l : UPoly ℤ} {L : ℤ[X]} (h : Is l L) {k : Nat} (hk : ∀ u ∈ l, u.1 < k) : L.coeff k = 0 := by
  rw [← h.eq]; exact coeff_eq_zero_of_degree_lt (toPoly_degree_lt hk)

theorem dvd_emod_sub (a m : ℤ) : m ∣ a % m - a := ⟨-(a / m), by linear_combination Int.emod_add_mul_ediv a m⟩

theorem negc_eq (a : ℤ) {m : ℤ} (hm : 0 < m) : m ∣ Int.fmod (m - Int.tmod (Int.tmod a m) m) m - (-a) ∧ 0 ≤ Int.fmod (m - Int.tmod (Int.tmod a m) m) m ∧ Int.fmod (m - Int.tmod (Int.tmod a m) m) m < m := by
  rw [fmod_pos _ hm, Int.tmod_tmod]
  refine ⟨?_, Int.emod_nonneg _ hm.ne', Int.emod_lt_of_pos _ hm⟩
  have h1 := dvd_emod_sub (m - a.tmod m) m
  have h2 : m ∣ (m - a.tmod m) - (-a) := by
    have := Int.tmod_add_mul_tdiv a m
    exact ⟨1 + a.tdiv m, by linear_combination -this⟩
  have : (m - a.tmod m) % m - -a = ((m - a.tmod m) % m - (m - a.tmod m)) + ((m - a.tmod m) - (-a)) := by ring
  rw [this]
  exact dvd_add h1 h2

theorem subShift_is {m : ℤ} (hm : 0 < m) (c : ℤ) (d n : Nat) (r g : UPoly ℤ) {R G : ℤ[X]} (hr : Is r R) (hg : Is g G)
    (rn : ∀ u ∈ r, u.1 < n) (gn : ∀ u ∈ g, u.1 + d < n) :
    ∃ H, Is (subShift m c d r g) H ∧ (∀ u ∈ subShift m c d r g, u.1 < n) ∧ Red m H ∧ Cong m H (R - C c * X ^ d * G) := by
  induction r, g using subShift.induct d generalizing R G n with
  | case1 =>
    rw [(is_nil_iff hr).1 rfl, (is_nil_iff hg).1 rfl]
    refine ⟨0, ?_, ?_, red_zero hm, ?_⟩
    · simpa [subShift] using nil_is
    · simp [subShift]
    · simpa using Cong.rfl'
  | case2 r rs ih =>
    obtain ⟨c1, c2, c3⟩ := canon_cons.1 hr.canon
    obtain ⟨H, h1, h2, h3, h4⟩ := ih r.1 (is_of_canon c3) hg c1 (by simp)
    rw [subShift]
    refine ⟨_, consNZ_is h1 h2, consNZ_lt (rn r (by simp)) (fun u hu => (h2 u hu).trans (rn r (by simp))), red_monomial_add h3 (coeff_lt_zero h1 h2) ?_, ?_⟩
    · rw [fmod_pos _ hm]; exact ⟨Int.emod_nonneg _ hm.ne', Int.emod_lt_of_pos _ hm⟩
    · have e : R = monomial r.1 r.2 + toPoly rs := by rw [← hr.eq, toPoly_cons]
      rw [e, add_sub_assoc]
      exact (cong_monomial (by rw [fmod_pos _ hm]; exact dvd_emod_sub _ _)).add h4
  | case3 g gs ih =>
    obtain ⟨c1, c2, c3⟩ := canon_cons.1 hg.canon
    obtain ⟨H, h1, h2, h3, h4⟩ := ih (g.1 + d) hr (is_of_canon c3) (by simp) (fun u hu => by have := c1 u hu; omega)
    rw [subShift]
    obtain ⟨n1, n2, n3⟩ := negc_eq (c * g.2) hm
    refine ⟨_, consNZ_is h1 h2, consNZ_lt (gn g (by simp)) (fun u hu => (h2 u hu).trans (gn g (by simp))), red_monomial_add h3 (coeff_lt_zero h1 h2) ⟨n2, n3⟩, ?_⟩
    have e : R - C c * X ^ d * G = monomial (g.1 + d) (-(c * g.2)) + (R - C c * X ^ d * toPoly gs) := by
      rw [← hg.eq, toPoly_cons, mul_add, C_mul_X_pow_eq_monomial, monomial_mul_monomial, monomial_neg, add_comm d]
      ring
    rw [e]
    exact (cong_monomial n1).add h4
  | case4 r rs g gs hlt ih =>
    obtain ⟨c1, c2, c3⟩ := canon_cons.1 hr.canon
    have b1 := (canon_cons.1 hg.canon).1
    obtain ⟨H, h1, h2, h3, h4⟩ := ih r.1 (is_of_canon c3) hg c1 (fun u hu => by
      rcases List.mem_cons.1 hu with rfl | h
      · omega
      · have := b1 u h; omega)
    rw [subShift, if_pos hlt]
    refine ⟨_, consNZ_is h1 h2, consNZ_lt (rn r (by simp)) (fun u hu => (h2 u hu).trans (rn r (by simp))), red_monomial_add h3 (coeff_lt_zero h1 h2) ?_, ?_⟩
    · rw [fmod_pos _ hm]; exact ⟨Int.emod_nonneg _ hm.ne', Int.emod_lt_of_pos _ hm⟩
    · have e : R = monomial r.1 r.2 + toPoly rs := by rw [← hr.eq, toPoly_cons]
      rw [e, add_sub_assoc]
      exact (cong_monomial (by rw [fmod_pos _ hm]; exact dvd_emod_sub _ _)).add h4
  | case5 r rs g gs hn hlt ih =>
    obtain ⟨c1, c2, c3⟩ := canon_cons.1 hg.canon
    have b1 := (canon_cons.1 hr.canon).1
    obtain ⟨H, h1, h2, h3, h4⟩ := ih (g.1 + d) hr (is_of_canon c3) (fun u hu => by
      rcases List.mem_cons.1 hu with rfl | h
      · omega
      · have := b1 u h; omega) (fun u hu => by have := c1 u hu; omega)
    rw [subShift, if_neg hn, if_pos hlt]
    obtain ⟨n1, n2, n3⟩ := negc_eq (c * g.2) hm
    refine ⟨_, consNZ_is h1 h2, consNZ_lt (gn g (by simp)) (fun u hu => (h2 u hu).trans (gn g (by simp))), red_monomial_add h3 (coeff_lt_zero h1 h2) ⟨n2, n3⟩, ?_⟩
    have e : R - C c * X ^ d * G = monomial (g.1 + d) (-(c * g.2)) + (R - C c * X ^ d * toPoly gs) := by
      rw [← hg.eq, toPoly_cons, mul_add, C_mul_X_pow_eq_monomial, monomial_mul_monomial, monomial_neg, add_comm d]
      ring
    rw [e]
    exact (cong_monomial n1).add h4
  | case6 r rs g gs hn hlt ih =>
    obtain ⟨a1, a2, a3⟩ := canon_cons.1 hr.canon
    obtain ⟨c1, c2, c3⟩ := canon_cons.1 hg.canon
    have hk : r.1 = g.1 + d := by omega
    obtain ⟨H, h1, h2, h3, h4⟩ := ih r.1 (is_of_canon a3) (is_of_canon c3) a1 (fun u hu => by have := c1 u hu; omega)
    rw [subShift, if_neg hn, if_neg hlt]
    refine ⟨_, consNZ_is h1 h2, consNZ_lt (rn r (by simp)) (fun u hu => (h2 u hu).trans (rn r (by simp))), red_monomial_add h3 (coeff_lt_zero h1 h2) ?_, ?_⟩
    · rw [fmod_pos _ hm]; exact ⟨Int.emod_nonneg _ hm.ne', Int.emod_lt_of_pos _ hm⟩
    · have e : R - C c * X ^ d * G = monomial r.1 (r.2 - c * g.2) + (toPoly rs - C c * X ^ d * toPoly gs) := by
        rw [← hg.eq, ← hr.eq, toPoly_cons, toPoly_cons, mul_add, C_mul_X_pow_eq_monomial, monomial_mul_monomial, monomial_sub, hk, add_comm d]
        ring
      rw [e]
      exact (cong_monomial (by rw [fmod_pos _ hm]; exact dvd_emod_sub _ _)).add h4

/-! ## the loop -/

theorem deg_lt_of_all {l : UPoly ℤ} {L : ℤ[X]} (h : Is l L) {n : Nat} (hn : ∀ u ∈ l, u.1 < n) : L.degree < n := h.eq ▸ toPoly_degree_lt hn

theorem red_tail {m : ℤ} {t : Nat × ℤ} {l : UPoly ℤ} (hm : 0 < m) (hc : Canon comp (t :: l)) (h : Red m (toPoly (t :: l))) : Red m (toPoly l) := by
  intro i
  have := h i
  rw [toPoly_cons, coeff_add, coeff_monomial] at this
  split at this
  · next hi =>
    subst hi
    rw [coeff_lt_zero (is_of_canon (canon_cons.1 hc).2.2) (canon_cons.1 hc).1]
    exact ⟨le_rfl, hm⟩
  · simpa using this

theorem divModLoop_spec {m inv : ℤ} (hm : 1 < m) {g : UPoly ℤ} {G : ℤ[X]} (hg : Is g G) (g0 : G ≠ 0) (hinv : m ∣ G.leadingCoeff * inv - 1) :
    ∀ (fuel : Nat) (q r : UPoly ℤ) (Q R : ℤ[X]), Is q Q → Is r R → Red m Q → Red m R → (∀ u ∈ r, u.1 + 1 < fuel) →
      (∀ u ∈ q, ∀ v ∈ r, v.1 < u.1 + deg g) → 0 < fuel →
      ∃ q' r' Q' R', divModLoop m inv g fuel q r = some (q', r') ∧ Is q' Q' ∧ Is r' R' ∧ Red m Q' ∧ Red m R' ∧ R'.degree < G.degree ∧
        Cong m (Q' * G + R') (Q * G + R) ∧ ∀ n, (∀ u ∈ q, u.1 + deg g ≤ n) → (∀ u ∈ r, u.1 ≤ n) → ∀ u ∈ q', u.1 + deg g ≤ n := by
  have m0 : 0 < m := by omega
  intro fuel
  induction fuel with
  | zero => intro q r Q R _ _ _ _ _ _ h; exact absurd h (lt_irrefl 0)
  | succ fuel ih =>
    intro q r Q R hq hr rq rr hf hqr _
    have e : divModLoop m inv g (fuel + 1) q r = if r ≠ [] ∧ deg r ≥ deg g then
        (if Int.fmod (lc r * inv) m = 0 then divModLoop m inv g fuel q r.tail
        else divModLoop m inv g fuel (q ++ [(deg r - deg g, Int.fmod (lc r * inv) m)]) (subShift m (Int.fmod (lc r * inv) m) (deg r - deg g) r.tail g.tail)) else some (q, r) := rfl
    rw [e]
    split
    · next hc =>
      obtain ⟨c1, c2⟩ := hc
      obtain ⟨t, l, rfl⟩ := List.exists_cons_of_ne_nil c1
      obtain ⟨x, gl, hgx⟩ := List.exists_cons_of_ne_nil (fun h => g0 ((is_nil_iff hg).1 h) : g ≠ [])
      subst hgx
      obtain ⟨a1, a2, a3⟩ := canon_cons.1 hr.canon
      obtain ⟨b1, b2, b3⟩ := canon_cons.1 hg.canon
      have hRe : R = monomial t.1 t.2 + toPoly l := by rw [← hr.eq, toPoly_cons]
      have hGe : G = monomial x.1 x.2 + toPoly gl := by rw [← hg.eq, toPoly_cons]
      have hlcG : G.leadingCoeff = x.2 := (is_lc hg).symm
      rw [hlcG] at hinv
      have d1 : deg (t :: l) = t.1 := rfl
      have d2 : deg (x :: gl) = x.1 := rfl
      have l1 : lc (t :: l) = t.2 := rfl
      rw [d1, d2] at c2
      rw [d1, d2, l1, fmod_pos _ m0]
      have ht := hf t (by simp)
      obtain ⟨co, hco⟩ : ∃ co, co = t.2 * inv % m := ⟨_, rfl⟩
      have hco2 : m ∣ co * x.2 - t.2 := by
        have h1 := dvd_emod_sub (t.2 * inv) m
        rw [← hco] at h1
        have : co * x.2 - t.2 = (co - t.2 * inv) * x.2 + t.2 * (x.2 * inv - 1) := by ring
        rw [this]
        exact dvd_add (dvd_mul_of_dvd_left h1 _) (dvd_mul_of_dvd_right hinv _)
      rw [← hco]
      have rl : Red m (toPoly l) := red_tail m0 hr.canon (hr.eq ▸ rr)
      split
      · next h0 =>
        have hl : Is l (toPoly l) := is_of_canon a3
        obtain ⟨q', r', Q', R', e1, e2, e3, e4, e5, e6, e7, e8⟩ := ih q l Q _ hq hl rq rl (fun u hu => by have := a1 u hu; omega) (fun u hu v hv => hqr u hu v (by simp [hv])) (by omega)
        refine ⟨q', r', Q', R', e1, e2, e3, e4, e5, e6, e7.trans ?_, fun n n1 n2 => e8 n n1 fun u hu => n2 u (by simp [hu])⟩
        refine Cong.add .rfl' ?_
        rw [hRe]
        have : Cong m (monomial t.1 0 + toPoly l) (monomial t.1 t.2 + toPoly l) := (cong_monomial (by
          rw [h0, zero_mul] at hco2
          exact hco2)).add .rfl'
        simpa using this
      · next h0 =>
        obtain ⟨H, s1, s2, s3, s4⟩ := subShift_is m0 co (t.1 - x.1) t.1 l gl (is_of_canon a3) (is_of_canon b3) a1 (fun u hu => by have := b1 u hu; omega)
        obtain ⟨d, hd⟩ : ∃ d, d = t.1 - x.1 := ⟨_, rfl⟩
        rw [← hd] at s1 s2 s4 ⊢
        have hco3 : 0 ≤ co ∧ co < m := by rw [hco]; exact ⟨Int.emod_nonneg _ m0.ne', Int.emod_lt_of_pos _ m0⟩
        have qlt : ∀ u ∈ q, d < u.1 := fun u hu => by have := hqr u hu t (by simp); rw [d2] at this; omega
        have hq2 : Is (q ++ [(d, co)]) (Q + monomial d co) := by
          refine ⟨⟨?_, ?_⟩, ?_⟩
          · rw [List.pairwise_append]
            refine ⟨hq.canon.1, by simp, ?_⟩
            intro u hu v hv
            simp only [List.mem_singleton] at hv
            subst hv
            simpa [comp] using qlt u hu
          · intro u hu
            rcases List.mem_append.1 hu with h | h
            · exact hq.canon.2 u h
            · simp only [List.mem_singleton] at h; subst h; exact h0
          · rw [toPoly_append, hq.eq, toPoly_cons, toPoly_nil, add_zero]
        have hq3 : Red m (Q + monomial d co) := by
          rw [add_comm]
          refine red_monomial_add rq ?_ hco3
          exact coeff_not_mem hq fun u hu he => by have := qlt u hu; omega
        obtain ⟨q', r', Q', R', e1, e2, e3, e4, e5, e6, e7, e8⟩ := ih (q ++ [(d, co)]) (subShift m co d l gl) _ H hq2 s1 hq3 s3 (fun u hu => by have := s2 u hu; omega) (by
            intro u hu v hv
            have hv' := s2 v hv
            rw [d2]
            rcases List.mem_append.1 hu with h | h
            · have := qlt u h; omega
            · simp only [List.mem_singleton] at h; subst h; omega) (by omega)
        refine ⟨q', r', Q', R', e1, e2, e3, e4, e5, e6, e7.trans ?_, fun n n1 n2 => e8 n (fun u hu => ?_) fun u hu => ?_⟩
        · have : Cong m ((Q + monomial d co) * G + H) ((Q + monomial d co) * G + (toPoly l - C co * X ^ d * toPoly gl)) := Cong.add .rfl' s4
          refine this.trans ?_
          have e9 : (Q + monomial d co) * G + (toPoly l - C co * X ^ d * toPoly gl) = Q * G + (monomial t.1 (co * x.2) + toPoly l) := by
            have : (monomial t.1 (co * x.2) : ℤ[X]) = C co * X ^ d * monomial x.1 x.2 := by
              have h : t.1 = d + x.1 := by omega
              rw [C_mul_X_pow_eq_monomial, monomial_mul_monomial, ← h]
            rw [this, ← C_mul_X_pow_eq_monomial, hGe]
            ring
          rw [e9, hRe]
          exact Cong.add .rfl' ((cong_monomial hco2).add .rfl')
        · rcases List.mem_append.1 hu with h | h
          · exact n1 u h
          · simp only [List.mem_singleton] at h; subst h
            have := n2 t (by simp)
            show d + x.1 ≤ n
            omega
        · have := s2 u hu
          have := n2 t (by simp)
          omega
    · next hc =>
      refine ⟨q, r, Q, R, rfl, hq, hr, rq, rr, ?_, .rfl', fun n n1 _ => n1⟩
      by_cases h0 : r = []
      · rw [(is_nil_iff hr).1 h0, degree_zero]
        exact bot_lt_iff_ne_bot.2 (by rwa [Ne, degree_eq_bot])
      · have h1 : ¬ deg r ≥ deg g := fun h => hc ⟨h0, h⟩
        have R0 : R ≠ 0 := fun h => h0 ((is_nil_iff hr).2 h)
        rw [is_deg hr, is_deg hg] at h1
        rw [degree_eq_natDegree R0, degree_eq_natDegree g0]
        exact_mod_cast not_le.1 h1

/-- `__upoly_divmod_mod`: returns quotient and remainder modulo `m` whenever the leading coefficient of the divisor is invertible -/
theorem divModMod_spec {m : ℤ} (hm : 1 < m) {f g : UPoly ℤ} {F G : ℤ[X]} (hf : Is f F) (hg : Is g G) (g0 : G ≠ 0) (hl : IsCoprime G.leadingCoeff m) :
    ∃ q r Q R, divModMod m f g = some (q, r) ∧ Is q Q ∧ Is r R ∧ Red m Q ∧ Red m R ∧ R.degree < G.degree ∧ Cong m (Q * G + R) F := by
  unfold divModMod
  rw [if_neg (fun h => g0 ((is_nil_iff hg).1 h))]
  obtain ⟨v, e1, e2, _⟩ := invertZ_spec hm hl
  rw [is_lc hg, e1, Option.bind_some]
  obtain ⟨H, h1, h2, h3, h4⟩ := modCoeff_is (show 0 < m by omega) hf
  have hdeg : ∀ u ∈ modCoeff m f, u.1 + 1 < deg f + 2 := by
    intro u hu
    obtain ⟨w, hw, e⟩ := List.mem_filterMap.1 hu
    split at e
    · simp only [Option.some.injEq] at e
      rw [← e]
      cases f with
      | nil => simp at hw
      | cons t l =>
        have := (canon_cons.1 hf.canon).1
        rcases List.mem_cons.1 hw with rfl | h
        · show w.1 + 1 < w.1 + 2; omega
        · have := this w h
          show w.1 + 1 < t.1 + 2; omega
    · simp at e
  obtain ⟨q', r', Q', R', f1, f2, f3, f4, f5, f6, f7, _⟩ := divModLoop_spec hm hg g0 e2 (deg f + 2) [] _ 0 H nil_is h1 (red_zero (by omega)) h4 hdeg (by simp) (by omega)
  refine ⟨q', r', Q', R', f1, f2, f3, f4, f5, f6, ?_⟩
  simpa using f7.trans (by simpa using h3)

end Upoly
end CLPoly
