import Verif.Poly.MulSpec
import Mathlib.Algebra.MvPolynomial.Degrees
import Mathlib.Algebra.MvPolynomial.NoZeroDivisors

/-! # Terms of a canonical vector and coefficients of the polynomial it stands for -/

namespace CLPoly
open Mono MvPolynomial
variable {vc : Var → Var → Bool} {mc : Mono → Mono → Bool} {R : Type*} [CommRing R] {p q h : PV Mono R}

theorem coeff_val_not_mem {s : Var →₀ ℕ} (hs : ∀ t ∈ p, expo t.1 ≠ s) : coeff s (val p) = 0 := by
  induction p with
  | nil => rw [val_nil, coeff_zero]
  | cons t p ih =>
    rw [val_cons, coeff_add, coeff_monomial, if_neg (hs t (by simp)), zero_add,
      ih fun x hx => hs x (List.mem_cons_of_mem _ hx)]

theorem PolyOK.tail {t : Mono × R} (hp : PolyOK vc mc (t :: p)) : PolyOK vc mc p :=
  ⟨fun x hx => hp.monos x (List.mem_cons_of_mem _ hx), (List.pairwise_cons.1 hp.canon.1).2,
    fun x hx => hp.canon.2 x (List.mem_cons_of_mem _ hx)⟩

theorem PolyOK.expo_ne (M : MonoOrd vc mc) {t : Mono × R} (hp : PolyOK vc mc (t :: p)) : ∀ x ∈ p, expo x.1 ≠ expo t.1 := by
  intro x hx e
  have hv := hp.monos x (List.mem_cons_of_mem _ hx)
  have h1 := (List.pairwise_cons.1 hp.canon.1).1 x hx
  rw [expo_inj M.vo hv (hp.monos t (by simp)) e, M.lawful.irrefl _ (hp.monos t (by simp))] at h1
  exact absurd h1 (by simp)

theorem PolyOK.coeff_mem (M : MonoOrd vc mc) (hp : PolyOK vc mc p) {t : Mono × R} (ht : t ∈ p) : coeff (expo t.1) (val p) = t.2 := by
  induction p with
  | nil => simp at ht
  | cons x p ih =>
    rw [val_cons, coeff_add, coeff_monomial]
    have hne := hp.expo_ne M
    rcases List.mem_cons.1 ht with rfl | ht
    · rw [if_pos rfl, coeff_val_not_mem hne, add_zero]
    · rw [if_neg (fun e => hne t ht e.symm), zero_add, ih hp.tail ht]

theorem PolyOK.mem_support (M : MonoOrd vc mc) (hp : PolyOK vc mc p) {s : Var →₀ ℕ} :
    s ∈ (val p).support ↔ ∃ t ∈ p, expo t.1 = s := by
  rw [mem_support_iff]
  constructor
  · intro h
    by_contra hc
    push Not at hc
    exact h (coeff_val_not_mem hc)
  · rintro ⟨t, ht, rfl⟩
    rw [hp.coeff_mem M ht]; exact hp.canon.2 t ht

theorem PolyOK.val_eq_zero (M : MonoOrd vc mc) (hp : PolyOK vc mc p) : val p = 0 ↔ p = [] := by
  constructor
  · intro h
    exact hp.ext M .nil (by rw [h, val_nil])
  · rintro rfl; rfl

theorem expo_degree {m : Mono} (hm : Valid vc m) : (((expo m).sum fun _ e => e : ℕ) : ℤ) = m.deg := by
  rw [hm.deg]
  unfold expo
  have hp := hm.pos
  generalize m.data = d at hp
  induction d with
  | nil => simp
  | cons x d ih =>
    rw [List.map_cons, List.sum_cons, Finsupp.sum_add_index' (fun _ => rfl) (fun _ _ _ => rfl), Nat.cast_add,
      ih fun y hy => hp y (List.mem_cons_of_mem _ hy), List.map_cons, List.sum_cons, Finsupp.sum_single_index rfl]
    have := hp x (by simp)
    omega

theorem PolyOK.deg_le_total (M : MonoOrd vc mc) (hp : PolyOK vc mc p) {t : Mono × R} (ht : t ∈ p) : t.1.deg ≤ (val p).totalDegree := by
  have := le_totalDegree ((hp.mem_support M).2 ⟨t, ht, rfl⟩)
  rw [← expo_degree (hp.monos t ht)]
  exact_mod_cast this

theorem PolyOK.exists_total (M : MonoOrd vc mc) (hp : PolyOK vc mc p) (h0 : p ≠ []) : ∃ t ∈ p, t.1.deg = (val p).totalDegree := by
  have hne : (val p).support.Nonempty := by
    obtain ⟨t, ht⟩ := List.exists_mem_of_ne_nil _ h0
    exact ⟨_, (hp.mem_support M).2 ⟨t, ht, rfl⟩⟩
  obtain ⟨s, hs, e⟩ := Finset.exists_mem_eq_sup _ hne fun s : Var →₀ ℕ => s.sum fun _ e => e
  obtain ⟨t, ht, rfl⟩ := (hp.mem_support M).1 hs
  refine ⟨t, ht, ?_⟩
  rw [← expo_degree (hp.monos t ht)]
  exact_mod_cast e.symm

theorem PolyOK.exp_le (M : MonoOrd vc mc) (hp : PolyOK vc mc p) {t : Mono × R} (ht : t ∈ p) (v : Var) : E t.1.data v ≤ (val p).degreeOf v := by
  have := monomial_le_degreeOf v ((hp.mem_support M).2 ⟨t, ht, rfl⟩)
  rw [← (hp.monos t ht).expo_eq]
  exact_mod_cast this

theorem PolyOK.exists_exp (M : MonoOrd vc mc) (hp : PolyOK vc mc p) (h0 : p ≠ []) (v : Var) : ∃ t ∈ p, E t.1.data v = (val p).degreeOf v := by
  have hne : (val p).support.Nonempty := by
    obtain ⟨t, ht⟩ := List.exists_mem_of_ne_nil _ h0
    exact ⟨_, (hp.mem_support M).2 ⟨t, ht, rfl⟩⟩
  obtain ⟨s, hs, e⟩ := Finset.exists_mem_eq_sup _ hne fun s : Var →₀ ℕ => s v
  rw [← degreeOf_eq_sup] at e
  obtain ⟨t, ht, rfl⟩ := (hp.mem_support M).1 hs
  refine ⟨t, ht, ?_⟩
  rw [← (hp.monos t ht).expo_eq]
  exact_mod_cast e.symm

/-- the first monomial of a grlex polynomial has the largest degree -/
theorem leadDeg_max (ho : VarOrd vc) (hp : PolyOK vc (grlexGt vc) p) : ∀ t ∈ p, t.1.deg ≤ leadDeg p := by
  intro t ht
  match p, hp, ht with
  | x :: p, hp, ht =>
    rcases List.mem_cons.1 ht with rfl | ht
    · exact le_rfl
    · have h1 := (List.pairwise_cons.1 hp.canon.1).1 t ht
      rw [grlexGt_iff ho (hp.monos x (by simp)) (hp.monos t (List.mem_cons_of_mem _ ht))] at h1
      show t.1.deg ≤ x.1.deg
      omega

/-- the largest exponent bounds all exponents -/
theorem le_maxExp (p : PV Mono R) : 0 ≤ maxExp p ∧ ∀ t ∈ p, ∀ x ∈ t.1.data, x.2 ≤ maxExp p := by
  have inner : ∀ (d : List (Var × Int)) (a : Int), a ≤ d.foldl (fun a x => max a x.2) a ∧ ∀ x ∈ d, x.2 ≤ d.foldl (fun a x => max a x.2) a := by
    intro d
    induction d with
    | nil => intro a; simp
    | cons y d ih =>
      intro a
      rw [List.foldl_cons]
      obtain ⟨i1, i2⟩ := ih (max a y.2)
      refine ⟨by omega, ?_⟩
      intro x hx
      rcases List.mem_cons.1 hx with rfl | hx
      · omega
      · exact i2 x hx
  have outer : ∀ (p : PV Mono R) (a : Int), a ≤ p.foldl (fun a t => t.1.data.foldl (fun a x => max a x.2) a) a ∧
      ∀ t ∈ p, ∀ x ∈ t.1.data, x.2 ≤ p.foldl (fun a t => t.1.data.foldl (fun a x => max a x.2) a) a := by
    intro p
    induction p with
    | nil => intro a; simp
    | cons t p ih =>
      intro a
      rw [List.foldl_cons]
      obtain ⟨i1, i2⟩ := ih (t.1.data.foldl (fun a x => max a x.2) a)
      obtain ⟨j1, j2⟩ := inner t.1.data a
      refine ⟨by omega, ?_⟩
      intro u hu x hx
      rcases List.mem_cons.1 hu with rfl | hu
      · have := j2 x hx; omega
      · exact i2 u hu x hx
  exact outer p 0

theorem E_le_maxExp (ho : VarOrd vc) (hp : ∀ t ∈ p, Valid vc t.1) {t : Mono × R} (ht : t ∈ p) (v : Var) : E t.1.data v ≤ maxExp p := by
  obtain ⟨h0, h1⟩ := le_maxExp p
  by_cases hz : E t.1.data v = 0
  · omega
  · obtain ⟨x, hx, rfl⟩ := exists_of_E hz
    rw [E_mem ho (hp t ht).sorted hx]; exact h1 t ht x hx

/-! ## factors -/

section fac
variable [NoZeroDivisors R] (M : MonoOrd vc mc) (hp : PolyOK vc mc p) (hq : PolyOK vc mc q) (hh : PolyOK vc mc h)
  (he : val p = val h * val q) (q0 : q ≠ [])
include M hp hq hh he q0

omit [NoZeroDivisors R] hp hh he in
theorem nontrivial_of : Nontrivial R := by
  obtain ⟨t, ht⟩ := List.exists_mem_of_ne_nil _ q0
  exact ⟨⟨t.2, 0, hq.canon.2 t ht⟩⟩

/-- the monomials of a factor are bounded by those of the product -/
theorem factor_deg {t : Mono × R} (ht : t ∈ h) : ∃ u ∈ p, t.1.deg ≤ u.1.deg := by
  have := nontrivial_of M hq q0
  have hd : IsDomain R := NoZeroDivisors.to_isDomain R
  have h0 : h ≠ [] := by rintro rfl; simp at ht
  have hv0 : val h ≠ 0 := fun e => h0 ((hh.val_eq_zero M).1 e)
  have hq0 : val q ≠ 0 := fun e => q0 ((hq.val_eq_zero M).1 e)
  have hp0 : p ≠ [] := by
    rintro rfl
    rw [val_nil] at he
    exact mul_ne_zero hv0 hq0 he.symm
  obtain ⟨u, hu, e⟩ := hp.exists_total M hp0
  refine ⟨u, hu, ?_⟩
  have h1 := hh.deg_le_total M ht
  have h2 := totalDegree_mul_of_isDomain hv0 hq0
  rw [← he] at h2
  rw [e, h2]
  push_cast
  omega

theorem factor_exp {t : Mono × R} (ht : t ∈ h) (v : Var) : ∃ u ∈ p, E t.1.data v ≤ E u.1.data v := by
  have := nontrivial_of M hq q0
  have hd : IsDomain R := NoZeroDivisors.to_isDomain R
  have h0 : h ≠ [] := by rintro rfl; simp at ht
  have hv0 : val h ≠ 0 := fun e => h0 ((hh.val_eq_zero M).1 e)
  have hq0 : val q ≠ 0 := fun e => q0 ((hq.val_eq_zero M).1 e)
  have hp0 : p ≠ [] := by
    rintro rfl
    rw [val_nil] at he
    exact mul_ne_zero hv0 hq0 he.symm
  obtain ⟨u, hu, e⟩ := hp.exists_exp M hp0 v
  refine ⟨u, hu, ?_⟩
  have h1 := hh.exp_le M ht v
  have h2 := degreeOf_mul_eq (n := v) hv0 hq0
  rw [← he] at h2
  rw [e, h2]
  push_cast
  omega

theorem factor_vars : polyVars h ⊆ polyVars p := by
  intro v hv
  obtain ⟨t, ht, hx⟩ := List.mem_flatMap.1 (List.mem_toFinset.1 hv)
  obtain ⟨x, hx', rfl⟩ := List.mem_map.1 hx
  obtain ⟨u, hu, hle⟩ := factor_exp M hp hq hh he q0 ht x.1
  rw [E_mem M.vo (hh.monos t ht).sorted hx'] at hle
  have := (hh.monos t ht).pos x hx'
  obtain ⟨y, hy, e⟩ := exists_of_E (show E u.1.data x.1 ≠ 0 by omega)
  rw [← e]; exact mem_polyVars hu hy

end fac
end CLPoly
