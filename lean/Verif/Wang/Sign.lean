import Verif.Wang.Defs
import Verif.Charset.Wu

/-! # The sign of the first coefficient -/

namespace CLPoly
namespace Wang
open Mono Mgcd Run Upoly Factor MvPolynomial

section
variable {vc : Var → Var → Bool} {mc : Mono → Mono → Bool}

/-- the first coefficient is positive -/
def Pos (p : PV Mono ℤ) : Prop := ∃ t r, p = t :: r ∧ 0 < t.2

theorem Pos.ne {p : PV Mono ℤ} (h : Pos p) : p ≠ [] := by
  obtain ⟨t, r, rfl, _⟩ := h; simp

theorem mul_inj (M : MonoOrd vc mc) {a b c : Mono} (ha : Mono.Valid vc a) (hb : Mono.Valid vc b) (hc : Mono.Valid vc c) (h : mul vc a c = mul vc b c) : a = b := by
  refine expo_inj M.vo ha hb ?_
  have := congrArg expo h
  rw [expo_mul M.vo ha hc, expo_mul M.vo hb hc] at this
  exact add_right_cancel this

/-- products of terms are at most the product of the first terms -/
theorem term_le (M : MonoOrd vc mc) {t u : Mono × ℤ} {p q : PV Mono ℤ} (hp : PolyOK vc mc (t :: p)) (hq : PolyOK vc mc (u :: q)) {a b : Mono × ℤ} (ha : a ∈ t :: p) (hb : b ∈ u :: q) :
    (a = t ∧ b = u) ∨ mc (mul vc t.1 u.1) (mul vc a.1 b.1) = true := by
  have vt := hp.monos t (by simp)
  have vu := hq.monos u (by simp)
  have va := hp.monos a ha
  have vb := hq.monos b hb
  have h1 : a = t ∨ mc (mul vc t.1 u.1) (mul vc a.1 u.1) = true := by
    rcases List.mem_cons.1 ha with h | h
    · exact .inl h
    · exact .inr (M.mono _ _ _ vt va vu ((List.pairwise_cons.1 hp.canon.1).1 a h))
  have h2 : b = u ∨ mc (mul vc a.1 u.1) (mul vc a.1 b.1) = true := by
    rcases List.mem_cons.1 hb with h | h
    · exact .inl h
    · right
      rw [mul_comm' M.vo va vu, mul_comm' M.vo va vb]
      exact M.mono _ _ _ vu vb va ((List.pairwise_cons.1 hq.canon.1).1 b h)
  rcases h1 with rfl | h1
  · rcases h2 with rfl | h2
    · exact .inl ⟨rfl, rfl⟩
    · exact .inr h2
  · rcases h2 with rfl | h2
    · exact .inr h1
    · exact .inr (M.lawful.trans _ _ _ (mul_valid M.vo vt vu) (mul_valid M.vo va vu) (mul_valid M.vo va vb) h1 h2)

/-- the first coefficient of a product -/
theorem head_mul (M : MonoOrd vc mc) {t u : Mono × ℤ} {p q h : PV Mono ℤ} (hp : PolyOK vc mc (t :: p)) (hq : PolyOK vc mc (u :: q)) (hh : PolyOK vc mc h)
    (e : val h = val (t :: p) * val (u :: q)) : ∃ r, h = (mul vc t.1 u.1, t.2 * u.2) :: r := by
  classical
  have vt := hp.monos t (by simp)
  have vu := hq.monos u (by simp)
  have hk : Mono.Valid vc (mul vc t.1 u.1) := mul_valid M.vo vt vu
  have hc : coeff (expo (mul vc t.1 u.1)) (val h) = t.2 * u.2 := by
    rw [e, coeff_mul, Finset.sum_eq_single (expo t.1, expo u.1)]
    · dsimp only
      rw [hp.coeff_mem M (by simp), hq.coeff_mem M (by simp)]
    · rintro ⟨a, b⟩ hab hne
      rw [Finset.mem_antidiagonal] at hab
      dsimp only at hab ⊢
      by_contra hz
      have ha : a ∈ (val (t :: p)).support := by rw [mem_support_iff]; intro h0; rw [h0, zero_mul] at hz; exact hz rfl
      have hb : b ∈ (val (u :: q)).support := by rw [mem_support_iff]; intro h0; rw [h0, mul_zero] at hz; exact hz rfl
      obtain ⟨x, hx, rfl⟩ := (hp.mem_support M).1 ha
      obtain ⟨y, hy, rfl⟩ := (hq.mem_support M).1 hb
      rcases term_le M hp hq hx hy with ⟨rfl, rfl⟩ | hlt
      · exact hne rfl
      · have vx := hp.monos x hx
        have vy := hq.monos y hy
        rw [← expo_mul M.vo vx vy] at hab
        rw [expo_inj M.vo (mul_valid M.vo vx vy) hk hab, M.lawful.irrefl _ hk] at hlt
        exact absurd hlt (by simp)
    · intro hn
      exact absurd (by rw [Finset.mem_antidiagonal, expo_mul M.vo vt vu]) hn
  have h0 : t.2 * u.2 ≠ 0 := mul_ne_zero (hp.canon.2 t (by simp)) (hq.canon.2 u (by simp))
  obtain ⟨w, hw, ew⟩ := (hh.mem_support M).1 (mem_support_iff.2 (hc ▸ h0))
  have ew' := expo_inj M.vo (hh.monos w hw) hk ew
  have ew2 : w.2 = t.2 * u.2 := by rw [← hh.coeff_mem M hw, ew, hc]
  match h, hw with
  | z :: r, hw =>
    rcases List.mem_cons.1 hw with rfl | hw
    · exact ⟨r, by rw [← ew', ← ew2]⟩
    · exfalso
      have hgt := (List.pairwise_cons.1 hh.canon.1).1 w hw
      have hz : expo z.1 ∈ (val (t :: p) * val (u :: q)).support := by rw [← e]; exact (hh.mem_support M).2 ⟨z, by simp, rfl⟩
      obtain ⟨a, ha, b, hb, eab⟩ := Finset.mem_add.1 (support_mul _ _ hz)
      obtain ⟨x, hx, rfl⟩ := (hp.mem_support M).1 ha
      obtain ⟨y, hy, rfl⟩ := (hq.mem_support M).1 hb
      have vx := hp.monos x hx
      have vy := hq.monos y hy
      have vz := hh.monos z (by simp)
      rw [← expo_mul M.vo vx vy] at eab
      have ez := expo_inj M.vo (mul_valid M.vo vx vy) vz eab
      rw [ew', ← ez] at hgt
      rcases term_le M hp hq hx hy with ⟨rfl, rfl⟩ | hlt
      · rw [M.lawful.irrefl _ hk] at hgt; exact absurd hgt (by simp)
      · have := M.lawful.trans _ _ _ hk (mul_valid M.vo vx vy) hk hlt hgt
        rw [M.lawful.irrefl _ hk] at this; exact absurd this (by simp)

theorem pos_mul (M : MonoOrd vc mc) {p q h : PV Mono ℤ} (hp : PolyOK vc mc p) (hq : PolyOK vc mc q) (hh : PolyOK vc mc h) (e : val h = val p * val q) (pp : Pos p) (pq : Pos q) : Pos h := by
  obtain ⟨t, p', rfl, ht⟩ := pp
  obtain ⟨u, q', rfl, hu⟩ := pq
  obtain ⟨r, hr⟩ := head_mul M hp hq hh e
  exact ⟨_, r, hr, mul_pos ht hu⟩

theorem pos_of_mul (M : MonoOrd vc mc) {p q h : PV Mono ℤ} (hp : PolyOK vc mc p) (hq : PolyOK vc mc q) (hh : PolyOK vc mc h) (e : val h = val p * val q) (ph : Pos h) (pp : Pos p) : Pos q := by
  obtain ⟨t, p', rfl, ht⟩ := pp
  match q, hq with
  | [], _ =>
    rw [val_nil, mul_zero] at e
    exact absurd ((hh.val_eq_zero M).1 e) ph.ne
  | u :: q', hq =>
    obtain ⟨r, hr⟩ := head_mul M hp hq hh e
    obtain ⟨x, r', hr', hx⟩ := ph
    rw [hr] at hr'
    cases hr'
    exact ⟨u, q', rfl, (mul_pos_iff_of_pos_left ht).1 hx⟩

/-- two polynomials with positive first coefficient that agree up to sign are equal -/
theorem pos_pm (M : MonoOrd vc mc) {p q : PV Mono ℤ} (hp : PolyOK vc mc p) (hq : PolyOK vc mc q) (pp : Pos p) (pq : Pos q) (h : val p = val q ∨ val p = -val q) : val p = val q := by
  refine h.resolve_right fun e => ?_
  have e' : p = pvNeg q := hp.ext M hq.neg (by rw [e, val_pvNeg])
  obtain ⟨t, p', rfl, ht⟩ := pp
  obtain ⟨u, q', rfl, hu⟩ := pq
  rw [pvNeg, List.map_cons] at e'
  injection e' with e1 _
  rw [e1] at ht
  dsimp only at ht
  omega

theorem makePos_spec {p : PV Mono ℤ} (hp : PolyOK vc mc p) : PolyOK vc mc (makePos p) ∧ (val (makePos p) = val p ∨ val (makePos p) = -val p) ∧ (p ≠ [] → Pos (makePos p)) := by
  match p, hp with
  | [], hp => exact ⟨hp, .inl rfl, fun h => absurd rfl h⟩
  | t :: p, hp =>
    rw [show makePos (t :: p) = if t.2 < 0 then pvNeg (t :: p) else t :: p from rfl]
    split
    · next h => exact ⟨hp.neg, .inr (val_pvNeg _), fun _ => ⟨_, _, rfl, by dsimp only; omega⟩⟩
    · next h =>
      have := hp.canon.2 t (by simp)
      exact ⟨hp, .inl rfl, fun _ => ⟨_, _, rfl, by omega⟩⟩

/-- with the sign made explicit -/
theorem makePos_sign (p : PV Mono ℤ) : val p = C (if (p.headD (Mono.one, 0)).2 < 0 then -1 else 1) * val (makePos p) := by
  match p with
  | [] => simp [makePos]
  | t :: p =>
    rw [show makePos (t :: p) = if t.2 < 0 then pvNeg (t :: p) else t :: p from rfl, List.headD_cons]
    split
    · rw [val_pvNeg]; simp
    · simp

end

end Wang
end CLPoly
