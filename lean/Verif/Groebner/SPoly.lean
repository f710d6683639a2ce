import Verif.Groebner.NormalForm
import Verif.Groebner.Update
import Verif.Poly.Support
import Verif.Props.Monomials

/-! # S-polynomials, monic polynomials, the reduction with sugar -/

namespace CLPoly.GB
open CLPoly Mono MvPolynomial

variable {vc : Var → Var → Bool} {mc : Mono → Mono → Bool} {K : Type*} [Field K] [DecidableEq K]
variable {L : Type*} [LinearOrder L] {r : (Var →₀ ℕ) → L} {V : Finset Var}

/-- the monomial order and a rank of exponent vectors that explains it -/
structure Setup (vc : Var → Var → Bool) (mc : Mono → Mono → Bool) (r : (Var →₀ ℕ) → L) : Prop where
  M : MonoOrd vc mc
  hr : ERank r
  hrm : ∀ a b, Valid vc a → Valid vc b → (mc a b = true ↔ r (expo b) < r (expo a))

/-- canonical, nonzero, monic -/
structure Monic (vc : Var → Var → Bool) (mc : Mono → Mono → Bool) (V : Finset Var) (g : PV Mono K) : Prop where
  okin : OKin vc mc V g
  ne : g ≠ []
  lc : lc g = 1

theorem expo_lcm (ho : VarOrd vc) {a b : Mono} (ha : Valid vc a) (hb : Valid vc b) : expo (lcm vc a b) = expo a ⊔ expo b := by
  ext v; rw [Finsupp.sup_apply]; exact (C14_lcm vc ho a b ha hb).2 v

theorem expo_gcd (ho : VarOrd vc) {a b : Mono} (ha : Valid vc a) (hb : Valid vc b) : expo (gcd vc a b) = expo a ⊓ expo b := by
  ext v; rw [Finsupp.inf_apply]; exact (C14_gcd vc ho a b ha hb).2 v

theorem isSome_divExact (ho : VarOrd vc) {a b : Mono} (ha : Valid vc a) (hb : Valid vc b) :
    (divExact vc a b).isSome = true ↔ expo b ≤ expo a := (C14_is_divexact vc ho a b ha hb).1

theorem divExact_none (ho : VarOrd vc) {a b : Mono} (ha : Valid vc a) (hb : Valid vc b) :
    divExact vc a b = none ↔ ¬ expo b ≤ expo a := by
  rw [← isSome_divExact ho ha hb]; cases divExact vc a b <;> simp

theorem deg_eq_zero {m : Mono} (h : Valid vc m) : m.deg = 0 ↔ expo m = 0 := by
  have h0 := h.deg
  constructor
  · intro hd
    rw [hd] at h0
    have : m.data = [] := by
      rcases hm : m.data with _ | ⟨x, d⟩
      · rfl
      · exfalso
        have h1 : 0 < x.2 := h.pos x (by rw [hm]; simp)
        have h2 : 0 ≤ (d.map Prod.snd).sum := by
          apply List.sum_nonneg
          intro y hy
          obtain ⟨z, hz, rfl⟩ := List.mem_map.1 hy
          exact (h.pos z (by rw [hm]; simp [hz])).le
        rw [hm, List.map_cons, List.sum_cons] at h0
        omega
    unfold expo; rw [this]; rfl
  · intro he
    have : m.data = [] := by
      rcases hm : m.data with _ | ⟨x, d⟩
      · rfl
      · exfalso
        have h1 : 0 < x.2 := h.pos x (by rw [hm]; simp)
        have h2 : expo m x.1 = 0 := by rw [he]; rfl
        unfold expo at h2
        rw [hm, List.map_cons, List.sum_cons, Finsupp.add_apply, Finsupp.single_eq_same] at h2
        omega
    rw [h0, this]; rfl

theorem OKin.lm_valid {g : PV Mono K} (h : OKin vc mc V g) (h0 : g ≠ []) : ValidIn vc V (lm g) := by
  cases g with
  | nil => exact absurd rfl h0
  | cons t g => exact h.keys t (by simp)

theorem coeff_lm (M : MonoOrd vc mc) {g : PV Mono K} (h : OKin vc mc V g) (h0 : g ≠ []) : coeff (expo (lm g)) (val g) = lc g := by
  cases g with
  | nil => exact absurd rfl h0
  | cons t g => exact h.ok.coeff_mem M (by simp)

theorem coeff_ne {g : PV Mono K} {s : Var →₀ ℕ} (hs : coeff s (val g) ≠ 0) : ∃ t ∈ g, expo t.1 = s := by
  by_contra h
  push Not at h
  exact hs (coeff_val_not_mem h)

theorem le_lm (S : Setup vc mc r) {g : PV Mono K} (h : OKin vc mc V g) {t : Mono × K} (ht : t ∈ g) : r (expo t.1) ≤ r (expo (lm g)) := by
  cases g with
  | nil => cases ht
  | cons u g =>
    rcases List.mem_cons.1 ht with rfl | ht
    · exact le_rfl
    · exact ((S.hrm _ _ (h.ok.monos u (by simp)) (h.ok.monos t (by simp [ht]))).1 (below_tail h.ok t ht)).le

theorem Monic.toIt (S : Setup vc mc r) {g : PV Mono K} (h : Monic vc mc V g) : (toIt g).OK r V where
  monic := by rw [show (GB.toIt g).poly = val g from rfl, show (GB.toIt g).lm = expo (lm g) from rfl, coeff_lm S.M h.okin h.ne, h.lc]
  le s hs := by obtain ⟨t, ht, rfl⟩ := coeff_ne hs; exact le_lm S h.okin ht
  vars s hs := by
    obtain ⟨t, ht, rfl⟩ := coeff_ne hs
    exact (validIn_iff S.M.vo (h.okin.ok.monos t ht)).1 (h.okin.keys t ht)

/-! ## `__make_monic` -/

theorem makeMonic_spec {g : PV Mono K} (h : OKin vc mc V g) (h0 : g ≠ []) :
    Monic vc mc V (makeMonic (· / ·) g) ∧ lm (makeMonic (· / ·) g) = lm g ∧ val (makeMonic (· / ·) g) = C (lc g)⁻¹ * val g ∧ lc g ≠ 0 := by
  have c0 : lc g ≠ 0 := by
    cases g with
    | nil => exact absurd rfl h0
    | cons t g => exact h.ok.canon.2 t (by simp)
  unfold makeMonic
  rw [if_neg h0]
  by_cases h1 : lc g = 1
  · rw [if_pos h1, h1]; exact ⟨⟨h, h0, h1⟩, rfl, by simp, one_ne_zero⟩
  · rw [if_neg h1]
    refine ⟨⟨⟨⟨?_, ?_, ?_⟩, ?_⟩, by simpa using h0, ?_⟩, ?_, ?_, c0⟩
    · intro t ht
      obtain ⟨u, hu, rfl⟩ := List.mem_map.1 ht
      exact h.ok.monos u hu
    · rw [List.pairwise_map]; exact h.ok.canon.1
    · intro t ht
      obtain ⟨u, hu, rfl⟩ := List.mem_map.1 ht
      exact div_ne_zero (h.ok.canon.2 u hu) c0
    · intro t ht
      obtain ⟨u, hu, rfl⟩ := List.mem_map.1 ht
      exact h.keys u hu
    · cases g with
      | nil => exact absurd rfl h0
      | cons t g => exact div_self c0
    · cases g with
      | nil => exact absurd rfl h0
      | cons t g => rfl
    · unfold val
      rw [List.map_map, ← List.sum_map_mul_left]
      congr 1
      refine List.map_congr_left fun t ht => ?_
      show monomial (expo t.1) (t.2 / lc g) = _
      rw [C_mul_monomial, div_eq_mul_inv, mul_comm]

theorem makeMonic_of {g : PV Mono K} (h1 : lc g = 1) : makeMonic (· / ·) g = g := by
  unfold makeMonic
  by_cases h0 : g = []
  · rw [if_pos h0]
  · rw [if_neg h0, if_pos h1]

/-! ## `__s_polynomial` -/

theorem sPoly_spec (S : Setup vc mc r) {f g : PV Mono K} (hf : Monic vc mc V f) (hg : Monic vc mc V g) :
    OKin vc mc V (sPoly vc mc (· / ·) f g) ∧ val (sPoly vc mc (· / ·) f g) = sp (toIt f) (toIt g) ∧
    ∀ t ∈ sPoly vc mc (· / ·) f g, r (expo t.1) < r (expo (lm f) ⊔ expo (lm g)) := by
  have ho := S.M.vo
  obtain ⟨t, f', rfl⟩ : ∃ t f', f = t :: f' := by
    cases f with
    | nil => exact absurd rfl hf.ne
    | cons t f' => exact ⟨t, f', rfl⟩
  obtain ⟨u, g', rfl⟩ : ∃ t f', g = t :: f' := by
    cases g with
    | nil => exact absurd rfl hg.ne
    | cons t f' => exact ⟨t, f', rfl⟩
  have vt := hf.okin.keys t (by simp)
  have vu := hg.okin.keys u (by simp)
  have e1 : t.2 = 1 := hf.lc
  have e2 : u.2 = 1 := hg.lc
  have vL := (C14_lcm vc ho _ _ vt.1 vu.1).1
  have eL := expo_lcm ho vt.1 vu.1
  have l1 : expo t.1 ≤ expo (lcm vc t.1 u.1) := eL ▸ le_sup_left
  have l2 : expo u.1 ≤ expo (lcm vc t.1 u.1) := eL ▸ le_sup_right
  obtain ⟨vq1, eq1⟩ := C14_div vc ho _ _ vL vt.1 l1
  obtain ⟨vq2, eq2⟩ := C14_div vc ho _ _ vL vu.1 l2
  have sL : (expo (lcm vc t.1 u.1)).support ⊆ V := by
    rw [eL]; exact support_sup ((validIn_iff ho vt.1).1 vt) ((validIn_iff ho vu.1).1 vu)
  have wq1 : ValidIn vc V (div vc (lcm vc t.1 u.1) t.1) := (validIn_iff ho vq1).2 (by rw [eq1]; exact support_sub sL)
  have wq2 : ValidIn vc V (div vc (lcm vc t.1 u.1) u.1) := (validIn_iff ho vq2).2 (by rw [eq2]; exact support_sub sL)
  obtain ⟨ok1, v1⟩ := mapTerms_ok S.M hf.okin wq1 one_ne_zero (fun c => c / t.2) (by intro x; rw [e1, div_one, mul_one])
  obtain ⟨ok2, v2⟩ := mapTerms_ok S.M hg.okin wq2 one_ne_zero (fun c => c / u.2) (by intro x; rw [e2, div_one, mul_one])
  have m1 : mul vc t.1 (div vc (lcm vc t.1 u.1) t.1) = lcm vc t.1 u.1 := by
    refine expo_inj ho (mul_valid ho vt.1 vq1) vL ?_
    rw [expo_mul ho vt.1 vq1, eq1, add_tsub_cancel_of_le l1]
  have m2 : mul vc u.1 (div vc (lcm vc t.1 u.1) u.1) = lcm vc t.1 u.1 := by
    refine expo_inj ho (mul_valid ho vu.1 vq2) vL ?_
    rw [expo_mul ho vu.1 vq2, eq2, add_tsub_cancel_of_le l2]
  refine ⟨ok1.sub S.M ok2, ?_, ?_⟩
  · show val (pvSub mc (mapTerms vc (t :: f') (div vc (lcm vc t.1 u.1) t.1) fun c => c / t.2) (mapTerms vc (u :: g') (div vc (lcm vc t.1 u.1) u.1) fun c => c / u.2)) = _
    rw [val_pvSub, v1, v2, eq1, eq2, eL]; rfl
  · intro x hx
    change x ∈ pvSub mc (mapTerms vc (t :: f') (div vc (lcm vc t.1 u.1) t.1) fun c => c / t.2) (mapTerms vc (u :: g') (div vc (lcm vc t.1 u.1) u.1) fun c => c / u.2) at hx
    unfold mapTerms at hx
    rw [List.map_cons, List.map_cons, m1, m2, pvSub_head _ _ _ _ _ S.M vL (by show t.2 / t.2 - u.2 / u.2 = 0; rw [e1, e2, sub_self])] at hx
    show _ < r (expo t.1 ⊔ expo u.1)
    rw [← eL]
    rcases pvSub_mem hx with ⟨y, hy, e⟩ | ⟨y, hy, e⟩
    · obtain ⟨z, hz, rfl⟩ := List.mem_map.1 hy
      have vz := hf.okin.ok.monos z (by simp [hz])
      rw [← e]
      refine lt_of_lt_of_eq ?_ (congrArg (fun m => r (expo m)) m1)
      exact (S.hrm _ _ (mul_valid ho vt.1 vq1) (mul_valid ho vz vq1)).1 (S.M.mono _ _ _ vt.1 vz vq1 (below_tail hf.okin.ok z hz))
    · obtain ⟨z, hz, rfl⟩ := List.mem_map.1 hy
      have vz := hg.okin.ok.monos z (by simp [hz])
      rw [← e]
      refine lt_of_lt_of_eq ?_ (congrArg (fun m => r (expo m)) m2)
      exact (S.hrm _ _ (mul_valid ho vu.1 vq2) (mul_valid ho vz vq2)).1 (S.M.mono _ _ _ vu.1 vz vq2 (below_tail hg.okin.ok z hz))

/-! ## `__normal_form_with_sugar` -/

theorem nfSugarLoop_of {G : List (PV Mono K)} {sugar : List Int} : ∀ {n : Nat} {h acc out : PV Mono K} (s : Int),
    nfLoop vc mc (· / ·) G n h acc = some (.ok out) → ∃ s', nfSugarLoop vc mc (· / ·) G sugar n h acc s = some (.ok (out, s'))
  | 0, _, _, _, _, h => by simp [nfLoop] at h
  | n + 1, [], acc, out, s, h => by
    rw [nfLoop] at h
    rw [nfSugarLoop]
    exact ⟨s, by injection h with h; injection h with h; rw [h]⟩
  | n + 1, t :: h', acc, out, s, h => by
    rw [nfLoop] at h
    rw [nfSugarLoop]
    rcases hf : findDiv vc t.1 0 G with (_ | ⟨i, g, q⟩) | _ | _ <;> simp only [hf] at h ⊢
    · exact nfSugarLoop_of s h
    · exact nfSugarLoop_of _ h
    all_goals simp at h

theorem nfSugarLoop_mono {G : List (PV Mono K)} {sugar : List Int} : ∀ {n m : Nat} {h acc : PV Mono K} {s : Int} {x : Out (PV Mono K × Int)}, n ≤ m →
    nfSugarLoop vc mc (· / ·) G sugar n h acc s = some x → nfSugarLoop vc mc (· / ·) G sugar m h acc s = some x
  | 0, _, _, _, _, _, _, h => by simp [nfSugarLoop] at h
  | n + 1, 0, _, _, _, _, hle, _ => by omega
  | n + 1, m + 1, [], acc, s, x, _, h => by
    rw [nfSugarLoop] at h ⊢; exact h
  | n + 1, m + 1, t :: h', acc, s, x, hle, h => by
    rw [nfSugarLoop] at h ⊢
    rcases hf : findDiv vc t.1 0 G with (_ | ⟨i, g, q⟩) | _ | _ <;> simp only [hf] at h ⊢
    · exact nfSugarLoop_mono (by omega) h
    · exact nfSugarLoop_mono (by omega) h
    all_goals exact h

theorem nfSugar_mono {G : List (PV Mono K)} {sugar : List Int} {n m : Nat} {h : PV Mono K} {s : Int} {x : Out (PV Mono K × Int)} (hle : n ≤ m)
    (hx : nfSugar vc mc (· / ·) n h G sugar s = some x) : nfSugar vc mc (· / ·) m h G sugar s = some x := by
  unfold nfSugar at hx ⊢
  split at hx <;> rename_i h0
  · rw [if_pos h0]; exact hx
  · rw [if_neg h0]; exact nfSugarLoop_mono hle hx

theorem NF.sugar {G : List (PV Mono K)} {h out : PV Mono K} (H : NF vc mc r V G h out) (hG : G ≠ []) :
    ∃ N, ∀ n ≥ N, ∀ sugar s, ∃ s', nfSugar vc mc (· / ·) n h G sugar s = some (.ok (out, s')) := by
  obtain ⟨N, hN⟩ := H.run
  by_cases h0 : h = []
  · subst h0
    have : out = [] := by
      have := hN (N + 1) (by omega) []
      rw [nfLoop] at this
      simpa using this.symm
    exact ⟨0, fun n _ sugar s => ⟨s, by rw [this]; simp [nfSugar]⟩⟩
  · refine ⟨N, fun n hn sugar s => ?_⟩
    unfold nfSugar
    rw [if_neg (by tauto)]
    have := hN n hn []
    rw [List.nil_append] at this
    exact nfSugarLoop_of s this

theorem NF.normalForm {G : List (PV Mono K)} {h out : PV Mono K} (H : NF vc mc r V G h out) :
    ∃ N, ∀ n ≥ N, normalForm vc mc (· / ·) n h G = some (.ok out) := by
  obtain ⟨N, hN⟩ := H.run
  by_cases h0 : h = []
  · subst h0
    have : out = [] := by
      have := hN (N + 1) (by omega) []
      rw [nfLoop] at this
      simpa using this.symm
    exact ⟨0, fun n _ => by rw [this]; simp [GB.normalForm]⟩
  by_cases hG : G = []
  · subst hG
    have key : ∀ (n : Nat) (h acc : PV Mono K), h.length < n → nfLoop vc mc (· / ·) ([] : List (PV Mono K)) n h acc = some (.ok (acc ++ h)) := by
      intro n
      induction n with
      | zero => intro h acc hl; omega
      | succ n ih =>
        intro h acc hl
        cases h with
        | nil => rw [nfLoop, List.append_nil]
        | cons t h =>
          rw [nfLoop]
          simp only [findDiv]
          rw [ih h _ (by simpa using hl), List.append_assoc]; rfl
    have e1 := key (N + h.length + 1) h [] (by omega)
    rw [hN (N + h.length + 1) (by omega) []] at e1
    have e2 : out = h := by simpa using e1
    exact ⟨0, fun n _ => by rw [e2]; simp [GB.normalForm]⟩
  · refine ⟨N, fun n hn => ?_⟩
    unfold GB.normalForm
    rw [if_neg (by tauto)]
    have := hN n hn []
    rwa [List.nil_append] at this

/-- an irreducible leading term stays -/
theorem NF.head {G : List (PV Mono K)} {t : Mono × K} {h out : PV Mono K} (H : NF vc mc r V G (t :: h) out) {out' : PV Mono K}
    (H' : NF vc mc r V G h out') (h0 : ∀ g ∈ G, g ≠ []) (hn : ∀ g ∈ G, divExact vc t.1 (lm g) = none) : out = t :: out' := by
  obtain ⟨N, hN⟩ := H.run
  obtain ⟨N', hN'⟩ := H'.run
  have e1 := hN (N + N' + 1) (by omega) []
  rcases findDiv_spec (vc := vc) (m := t.1) (G := G) 0 h0 with ⟨e, _⟩ | ⟨i, g, q, e, hg, hq⟩
  · rw [nfLoop] at e1
    simp only [e] at e1
    rw [hN' (N + N') (by omega)] at e1
    simpa using e1.symm
  · rw [hn g hg] at hq; cases hq

end CLPoly.GB
