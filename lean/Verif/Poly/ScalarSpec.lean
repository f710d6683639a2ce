import Verif.Poly.OpsSpec
import Mathlib.Algebra.MvPolynomial.Eval
import Mathlib.Tactic.LinearCombination

/-! # Comparison of polynomials, operations with scalars and monomials -/

namespace CLPoly
open Mono MvPolynomial
variable {vc : Var → Var → Bool} {mc : Mono → Mono → Bool}

/-! ## the lexicographic comparison of term vectors -/
section comp
variable {K R : Type*} [DecidableEq K] [DecidableEq R] {S : K → Prop} {comp : K → K → Bool} {gt : R → R → Bool}

theorem pvComp_irrefl (v : PV K R) : pvComp comp gt v v = false := by
  induction v with
  | nil => rfl
  | cons x v ih => simp [pvComp, ih]

theorem pvComp_trans (hl : Lawful S comp) (hg : Lawful (fun _ : R => True) gt) : ∀ u v w : PV K R, KeysIn S u → KeysIn S v → KeysIn S w →
    pvComp comp gt u v = true → pvComp comp gt v w = true → pvComp comp gt u w = true := by
  intro u
  induction u with
  | nil => intro v w _ _ _ h; simp [pvComp] at h
  | cons x u ih =>
    intro v w hu hv hw h1 h2
    match v, w, hv, hw, h1, h2 with
    | [], _, _, _, _, h2 => simp [pvComp] at h2
    | y :: v, [], _, _, _, _ => rfl
    | y :: v, z :: w, hv, hw, h1, h2 =>
      rw [KeysIn.cons] at hu hv hw
      simp only [pvComp] at h1 h2 ⊢
      by_cases e1 : x.1 = y.1
      · rw [if_neg (by simpa using e1)] at h1
        by_cases e2 : y.1 = z.1
        · rw [if_neg (by simpa using e2)] at h2
          rw [if_neg (by simpa using e1.trans e2)]
          by_cases f1 : x.2 = y.2
          · rw [if_neg (by simpa using f1)] at h1
            by_cases f2 : y.2 = z.2
            · rw [if_neg (by simpa using f2)] at h2
              rw [if_neg (by simpa using f1.trans f2)]
              exact ih v w hu.2 hv.2 hw.2 h1 h2
            · rw [if_pos (by simpa using f2)] at h2
              rw [f1, if_pos (by simpa using f2)]; exact h2
          · rw [if_pos (by simpa using f1)] at h1
            by_cases f2 : y.2 = z.2
            · rw [← f2, if_pos (by simpa using f1)]; exact h1
            · rw [if_pos (by simpa using f2)] at h2
              have h3 := hg.trans _ _ _ trivial trivial trivial h1 h2
              rw [if_pos]
              · exact h3
              · intro e; rw [e, hg.irrefl _ trivial] at h3; exact absurd h3 (by simp)
        · rw [if_pos (by simpa using e2)] at h2
          rw [e1, if_pos (by simpa using e2)]; exact h2
      · rw [if_pos (by simpa using e1)] at h1
        by_cases e2 : y.1 = z.1
        · rw [← e2, if_pos (by simpa using e1)]; exact h1
        · rw [if_pos (by simpa using e2)] at h2
          have h3 := hl.trans _ _ _ hu.1 hv.1 hw.1 h1 h2
          rw [if_pos]
          · exact h3
          · intro e; rw [e, hl.irrefl _ hw.1] at h3; exact absurd h3 (by simp)

theorem pvComp_total_of (hl : Lawful S comp) (hg : Lawful (fun _ : R => True) gt) : ∀ u v : PV K R, KeysIn S u → KeysIn S v → u ≠ v →
    pvComp comp gt u v = true ∨ pvComp comp gt v u = true := by
  intro u
  induction u with
  | nil => intro v _ _ h; cases v with
    | nil => exact absurd rfl h
    | cons y v => exact .inr rfl
  | cons x u ih =>
    intro v hu hv h
    cases v with
    | nil => exact .inl rfl
    | cons y v =>
      rw [KeysIn.cons] at hu hv
      simp only [pvComp]
      by_cases e1 : x.1 = y.1
      · rw [if_neg (show ¬ x.1 ≠ y.1 by simpa using e1), if_neg (show ¬ y.1 ≠ x.1 by simpa using e1.symm)]
        by_cases f1 : x.2 = y.2
        · rw [if_neg (show ¬ x.2 ≠ y.2 by simpa using f1), if_neg (show ¬ y.2 ≠ x.2 by simpa using f1.symm)]
          refine ih v hu.2 hv.2 fun e => h ?_
          rw [e, Prod.ext e1 f1]
        · rw [if_pos (show x.2 ≠ y.2 from f1), if_pos (show y.2 ≠ x.2 from Ne.symm f1)]
          exact hg.total _ _ trivial trivial f1
      · rw [if_pos (show x.1 ≠ y.1 from e1), if_pos (show y.1 ≠ x.1 from Ne.symm e1)]
        exact hl.total _ _ hu.1 hv.1 e1

end comp

section
variable {R : Type*} [CommRing R] [DecidableEq R] {p q : PV Mono R}

theorem expo_eq_zero {m : Mono} (hm : Valid vc m) : expo m = 0 ↔ m.data = [] := by
  constructor
  · intro h
    cases hd : m.data with
    | nil => rfl
    | cons x d =>
      exfalso
      have h1 := hm.expo_eq x.1
      rw [h, hd] at h1
      have h2 := hm.pos
      rw [hd] at h2
      have h3 := E_nonneg (d := d) (fun y hy => h2 y (List.mem_cons_of_mem _ hy)) x.1
      have h4 := h2 x (by simp)
      simp [E_cons] at h1
      omega
  · intro h; unfold expo; rw [h]; rfl

theorem eq_one_of_data {m : Mono} (hm : Valid vc m) (h : m.data = []) : m = Mono.one := by
  have := hm.deg
  cases m; simp_all [Mono.one]

/-- the constant monomial is the smallest -/
theorem Mono.MonoOrd.gt_one (M : MonoOrd vc mc) {m : Mono} (hm : Valid vc m) (h : m.data ≠ []) : mc m Mono.one = true := by
  have hne : m ≠ Mono.one := fun e => h (by rw [e]; rfl)
  rcases M.lawful.total _ _ hm one_valid hne with h1 | h1
  · exact h1
  · have := M.dom Mono.one m one_valid hm fun v => E_nonneg hm.pos v
    rw [this] at h1; exact absurd h1 (by simp)

omit [DecidableEq R] in
theorem val_const (c : R) : val [(Mono.one, c)] = C c := by
  rw [val_cons, val_nil, add_zero]; rfl

omit [DecidableEq R] in
/-- appending a term below all terms -/
theorem PolyOK.snoc (M : MonoOrd vc mc) (hp : PolyOK vc mc p) {m : Mono} {c : R} (hm : Valid vc m) (hc : c ≠ 0)
    (hlast : ∀ b ∈ p.getLast?, mc b.1 m = true) : PolyOK vc mc (p ++ [(m, c)]) := by
  refine ⟨?_, ?_, ?_⟩
  · intro t ht
    rcases List.mem_append.1 ht with h | h
    · exact hp.monos t h
    · rw [List.mem_singleton.1 h]; exact hm
  · rw [List.pairwise_append]
    refine ⟨hp.canon.1, List.pairwise_singleton _ _, ?_⟩
    intro a ha b hb
    rw [List.mem_singleton.1 hb]
    cases hL : p.getLast? with
    | none => rw [List.getLast?_eq_none_iff] at hL; rw [hL] at ha; simp at ha
    | some l =>
      have hl := hlast l (by rw [hL]; rfl)
      obtain ⟨ini, rfl⟩ := List.getLast?_eq_some_iff.1 hL
      rcases List.mem_append.1 ha with h | h
      · exact M.lawful.trans _ _ _ (hp.monos a ha) (hp.monos l (by simp)) hm
          ((List.pairwise_append.1 hp.canon.1).2.2 a h l (by simp)) hl
      · rw [List.mem_singleton.1 h]; exact hl
  · intro t ht
    rcases List.mem_append.1 ht with h | h
    · exact hp.canon.2 t h
    · rw [List.mem_singleton.1 h]; exact hc

theorem polyAddConst_spec (M : MonoOrd vc mc) (hp : PolyOK vc mc p) (h0 : p ≠ []) (c : R) :
    ∃ out, polyAddConst p c = some out ∧ val out = val p + C c ∧
      ((∀ d, coeff 0 (val p) = d → d + c ≠ 0) → PolyOK vc mc out) ∧
      (coeff 0 (val p) + c = 0 → ¬ PolyOK vc mc out) := by
  cases hL : p.getLast? with
  | none => exact absurd (List.getLast?_eq_none_iff.1 hL) h0
  | some b =>
    have hLast := hL
    obtain ⟨ini, rfl⟩ := List.getLast?_eq_some_iff.1 hL
    have hb := hp.monos b (by simp)
    unfold polyAddConst
    rw [hLast]
    by_cases hd : b.1.data = []
    · simp only [hd, if_true, List.dropLast_concat]
      have hb1 := eq_one_of_data hb hd
      have hcoef : coeff 0 (val (ini ++ [b])) = b.2 := by
        have := hp.coeff_mem M (t := b) (by simp)
        rwa [hb1] at this
      refine ⟨_, rfl, ?_, ?_, ?_⟩
      · rw [val_append, val_append, add_assoc, hb1, show [b] = [(Mono.one, b.2)] by rw [← hb1], val_const, val_const, map_add]
      · intro hne
        have hini : PolyOK vc mc ini := ⟨fun t ht => hp.monos t (by simp [ht]), (List.pairwise_append.1 hp.canon.1).1,
          fun t ht => hp.canon.2 t (by simp [ht])⟩
        refine hini.snoc M hb (hne _ hcoef) ?_
        intro l hl
        have : l ∈ ini := List.mem_of_mem_getLast? hl
        exact (List.pairwise_append.1 hp.canon.1).2.2 l this b (by simp)
      · intro hz hok
        rw [hcoef] at hz
        exact hok.canon.2 (b.1, b.2 + c) (by simp) hz
    · simp only [hd, if_false]
      have hcoef : coeff 0 (val (ini ++ [b])) = 0 := by
        by_contra hne
        obtain ⟨t, ht, e⟩ := (hp.mem_support M).1 (mem_support_iff.2 hne)
        have ht1 := eq_one_of_data (hp.monos t ht) ((expo_eq_zero (hp.monos t ht)).1 e)
        have hlt : mc b.1 Mono.one = true := M.gt_one hb hd
        rcases List.mem_append.1 ht with h | h
        · have h1 := (List.pairwise_append.1 hp.canon.1).2.2 t h b (by simp)
          rw [ht1] at h1
          have := M.lawful.trans _ _ _ hb one_valid hb hlt h1
          rw [M.lawful.irrefl _ hb] at this; exact absurd this (by simp)
        · rw [List.mem_singleton.1 h] at ht1
          rw [ht1] at hd; exact hd rfl
      refine ⟨_, rfl, ?_, ?_, ?_⟩
      · rw [val_append (ini ++ [b]), val_const]
      · intro hne
        have hc : c ≠ 0 := by simpa using hne _ hcoef
        refine hp.snoc M one_valid hc ?_
        intro l hl
        rw [hLast, Option.mem_some_iff] at hl
        rw [← hl]; exact M.gt_one hb hd
      · intro hz hok
        rw [hcoef, zero_add] at hz
        exact hok.canon.2 (Mono.one, c) (by simp) hz

omit [DecidableEq R] in
theorem val_pvAdd [DecidableEq R] (p q : PV Mono R) : val (pvAdd mc p q) = val p + val q := by
  rw [← den_termVal, den_pvAdd, den_termVal, den_termVal]
omit [DecidableEq R] in
theorem val_pvSub [DecidableEq R] (p q : PV Mono R) : val (pvSub mc p q) = val p - val q := by
  rw [← den_termVal, den_pvSub, den_termVal, den_termVal]
omit [DecidableEq R] in
theorem val_pvNeg (p : PV Mono R) : val (pvNeg p) = - val p := by
  rw [← den_termVal, den_pvNeg, den_termVal]

theorem PolyOK.add (M : MonoOrd vc mc) (hp : PolyOK vc mc p) (hq : PolyOK vc mc q) : PolyOK vc mc (pvAdd mc p q) :=
  ⟨pvAdd_keysIn (S := Valid vc) hp.monos hq.monos, pvAdd_canon M.lawful hp.monos hq.monos hp.canon hq.canon⟩
theorem PolyOK.sub (M : MonoOrd vc mc) (hp : PolyOK vc mc p) (hq : PolyOK vc mc q) : PolyOK vc mc (pvSub mc p q) :=
  ⟨pvSub_keysIn (S := Valid vc) hp.monos hq.monos, pvSub_canon M.lawful hp.monos hq.monos hp.canon hq.canon⟩
omit [DecidableEq R] in
theorem PolyOK.neg (hp : PolyOK vc mc p) : PolyOK vc mc (pvNeg p) :=
  ⟨pvNeg_keysIn (S := Valid vc) hp.monos, pvNeg_canon hp.canon⟩

omit [DecidableEq R] in
theorem PolyOK.single {m : Mono} {c : R} (hm : Valid vc m) (hc : c ≠ 0) : PolyOK vc mc [(m, c)] :=
  ⟨by simpa using hm, by simp, by simpa using hc⟩

theorem polyAddMono_spec (M : MonoOrd vc mc) (hp : PolyOK vc mc p) {m : Mono} (hm : Valid vc m) {c : R} (hc : c ≠ 0) :
    PolyOK vc mc (polyAddMono mc p m c) ∧ val (polyAddMono mc p m c) = val p + monomial (expo m) c := by
  have hv : val [(m, c)] = monomial (expo m) c := by rw [val_cons, val_nil, add_zero]
  unfold polyAddMono
  cases hL : p.getLast? with
  | none => exact ⟨hp.snoc M hm hc (by simp [hL]), by rw [val_append, hv]⟩
  | some b =>
    simp only
    split
    · exact ⟨hp.add M (.single hm hc), by rw [val_pvAdd, hv]⟩
    · rename_i h
      refine ⟨hp.snoc M hm hc fun l hl => ?_, by rw [val_append, hv]⟩
      rw [hL, Option.mem_some_iff] at hl
      rw [← hl]; simpa using h

/-- sorted input is left alone by the sort: normalising a canonical vector is the identity -/
theorem polyNormalize_id (M : MonoOrd vc mc) (hp : PolyOK vc mc p) : polyNormalize vc mc p = p := by
  have hnn : ∀ t ∈ p, ∀ x ∈ t.1.data, 0 ≤ x.2 := fun t ht x hx => ((hp.monos t ht).pos x hx).le
  obtain ⟨h1, h2, h3⟩ := polyNormalize_spec M hnn
  have hok : PolyOK vc mc (polyNormalize vc mc p) := by
    refine (polyNormalize_ok_iff M hnn (sortResult_merge M (firstNormalize_valid M.vo hnn))).2 fun t ht _ => ?_
    rw [hp.coeff_mem M ht]; exact hp.canon.2 t ht
  exact hok.ext M hp h2

omit [DecidableEq R] in
theorem val_map_mul (c : R) : val (p.map fun t => (t.1, t.2 * c)) = val p * C c := by
  induction p with
  | nil => rw [List.map_nil, val_nil, zero_mul]
  | cons t p ih => rw [List.map_cons, val_cons, val_cons, ih, add_mul, mul_comm (monomial _ _) (C c), C_mul_monomial, mul_comm c]

theorem polyScale_spec [NoZeroDivisors R] (M : MonoOrd vc mc) (hp : PolyOK vc mc p) (c : R) :
    PolyOK vc mc (polyScale vc mc p c) ∧ val (polyScale vc mc p c) = val p * C c := by
  unfold polyScale
  split
  · rename_i h; exact ⟨.nil, by rw [h, C_0, mul_zero, val_nil]⟩
  · rename_i h
    have hok : PolyOK vc mc (p.map fun t => (t.1, t.2 * c)) := by
      refine ⟨?_, List.pairwise_map.2 hp.canon.1, ?_⟩
      · intro t ht
        obtain ⟨u, hu, rfl⟩ := List.mem_map.1 ht
        exact hp.monos u hu
      · intro t ht
        obtain ⟨u, hu, rfl⟩ := List.mem_map.1 ht
        exact mul_ne_zero (hp.canon.2 u hu) h
    rw [polyNormalize_id M hok]
    exact ⟨hok, val_map_mul c⟩

end
end CLPoly
