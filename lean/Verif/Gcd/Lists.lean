import Verif.Gcd.Defs
import Verif.Gcd.Theory
import Verif.Poly.PowSpec
import Verif.Poly.SubstSpec
import Verif.Poly.DivSpec

/-! # First and last variables, images, divisions on lex term lists -/

namespace CLPoly
namespace Mgcd
open Mono MvPolynomial
open Dense (IsGcd)

/-- a canonical lex term list -/
abbrev LP {R : Type*} [CommRing R] (vc : Var → Var → Bool) (p : PV Mono R) : Prop := PolyOK vc (lexGt vc) p

variable {vc : Var → Var → Bool}

section
variable {R : Type*} [CommRing R] [DecidableEq R] {p : PV Mono R}

theorem mem_vars_iff (ho : VarOrd vc) (hp : LP vc p) {w : Var} : w ∈ (val p).vars ↔ ∃ t ∈ p, ∃ x ∈ t.1.data, x.1 = w := by
  rw [← polyVars_eq (lex_ord ho) hp, polyVars, List.mem_toFinset, List.mem_flatMap]
  simp

theorem top_iff (ho : VarOrd vc) (hp : LP vc p) {v : Var} : Top vc v p ↔ ∀ w ∈ (val p).vars, w = v ∨ vc v w = true := by
  constructor
  · intro h w hw
    obtain ⟨t, ht, x, hx, rfl⟩ := (mem_vars_iff ho hp).1 hw
    exact h t ht x hx
  · intro h t ht x hx
    exact h x.1 ((mem_vars_iff ho hp).2 ⟨t, ht, x, hx, rfl⟩)

/-- a first variable that is not the null variable: it comes first, and `get_first_deg` is the degree -/
theorem first_spec (ho : VarOrd vc) (hp : LP vc p) (h : pFirstVar p ≠ 0) :
    Top vc (pFirstVar p) p ∧ 0 < (val p).degreeOf (pFirstVar p) ∧ pFirstDeg p = (val p).degreeOf (pFirstVar p) := by
  cases p with
  | nil => exact absurd rfl h
  | cons t p =>
    cases hd : t.1.data with
    | nil => exact absurd (show firstVar t.1 = 0 by unfold firstVar; rw [hd]) h
    | cons x l =>
      have e1 : pFirstVar (t :: p) = x.1 := by show firstVar t.1 = _; unfold firstVar; rw [hd]
      have e2 : pFirstDeg (t :: p) = x.2 := by show firstDeg t.1 = _; unfold firstDeg; rw [hd]
      have ht := lex_first ho hp hd
      have := top_first ho hp ht
      rw [if_pos e1] at this
      rw [e1]
      have hx := (hp.monos t (by simp)).pos x (by rw [hd]; simp)
      refine ⟨ht, ?_, this⟩
      rw [e2] at this; omega

theorem first_zero (ho : VarOrd vc) (hp : LP vc p) (h0 : 0 ∉ (val p).vars) : pFirstVar p = 0 ↔ (val p).vars = ∅ := by
  constructor
  · intro h
    cases p with
    | nil => simp [val_nil]
    | cons t p =>
      cases hd : t.1.data with
      | nil =>
        have := lex_const_front ho hp hd
        subst this
        rw [Finset.eq_empty_iff_forall_notMem]
        intro w hw
        obtain ⟨u, hu, x, hx, _⟩ := (mem_vars_iff ho hp).1 hw
        rw [List.mem_singleton] at hu
        rw [hu, hd] at hx
        simp at hx
      | cons x l =>
        have e1 : pFirstVar (t :: p) = x.1 := by show firstVar t.1 = _; unfold firstVar; rw [hd]
        exact absurd ((mem_vars_iff ho hp).2 ⟨t, by simp, x, by rw [hd]; simp, by rw [← e1, h]⟩) h0
  · intro h
    by_contra hc
    have := (first_spec ho hp hc).2.1
    have h2 : (val p).degreeOf (pFirstVar p) = 0 := degreeOf_zero_iff.2 (by rw [h]; simp)
    omega

theorem first_mem (ho : VarOrd vc) (hp : LP vc p) (h : pFirstVar p ≠ 0) : pFirstVar p ∈ (val p).vars := by
  by_contra hc
  have := (first_spec ho hp h).2.1
  rw [degreeOf_zero_iff.2 hc] at this
  omega

/-- the first variable is the one on top -/
theorem first_of_top (ho : VarOrd vc) (hp : LP vc p) {v : Var} (ht : Top vc v p) (hd : 0 < (val p).degreeOf v) : pFirstVar p = v := by
  have := top_first ho hp ht
  by_contra hc
  rw [if_neg hc] at this
  omega

/-- `get_last_var_deg` -/
theorem lastVarDeg_spec (ho : VarOrd vc) (hp : LP vc p) (h : pFirstVar p ≠ 0) :
    (lastVarDeg vc p).1 ∈ (val p).vars ∧ (∀ w ∈ (val p).vars, w = (lastVarDeg vc p).1 ∨ vc w (lastVarDeg vc p).1 = true) ∧
      (lastVarDeg vc p).2 = (val p).degreeOf (lastVarDeg vc p).1 := by
  have M := lex_ord ho
  have key : ∀ (l : PV Mono R) (a : Var × Int), (∀ t ∈ l, t ∈ p) → 0 ≤ a.2 → a.1 ∈ (val p).vars → (∃ t ∈ p, E t.1.data a.1 = a.2) → ∀ done : PV Mono R,
      (∀ t ∈ done, t ∈ p) → (∀ t ∈ done, (∀ x ∈ t.1.data, x.1 = a.1 ∨ vc x.1 a.1 = true) ∧ E t.1.data a.1 ≤ a.2) →
      ∀ r, r = l.foldl (fun a t =>
        match t.1.data.getLast? with
        | none => a
        | some x => if vc a.1 x.1 then x else if a.1 = x.1 ∧ a.2 < x.2 then (a.1, x.2) else a) a →
      0 ≤ r.2 ∧ r.1 ∈ (val p).vars ∧ (∃ t ∈ p, E t.1.data r.1 = r.2) ∧ ∀ t, (t ∈ done ∨ t ∈ l) → (∀ x ∈ t.1.data, x.1 = r.1 ∨ vc x.1 r.1 = true) ∧ E t.1.data r.1 ≤ r.2 := by
    intro l
    induction l with
    | nil =>
      intro a _ h1 h2 h3 done _ h4 r hr
      rw [List.foldl_nil] at hr
      subst hr
      exact ⟨h1, h2, h3, fun t ht => h4 t (by simpa using ht)⟩
    | cons t l ih =>
      intro a hl h1 h2 h3 done hdone h4 r hr
      rw [List.foldl_cons] at hr
      have htp := hl t (by simp)
      have hv := hp.monos t htp
      have comb : ∀ b : Var × Int, 0 ≤ b.2 → b.1 ∈ (val p).vars → (∃ t ∈ p, E t.1.data b.1 = b.2) →
          (∀ u ∈ t :: done, (∀ x ∈ u.1.data, x.1 = b.1 ∨ vc x.1 b.1 = true) ∧ E u.1.data b.1 ≤ b.2) →
          r = l.foldl (fun a t =>
            match t.1.data.getLast? with
            | none => a
            | some x => if vc a.1 x.1 then x else if a.1 = x.1 ∧ a.2 < x.2 then (a.1, x.2) else a) b →
          0 ≤ r.2 ∧ r.1 ∈ (val p).vars ∧ (∃ t ∈ p, E t.1.data r.1 = r.2) ∧ ∀ u, (u ∈ done ∨ u ∈ t :: l) → (∀ x ∈ u.1.data, x.1 = r.1 ∨ vc x.1 r.1 = true) ∧ E u.1.data r.1 ≤ r.2 := by
        intro b b1 b2 b3 b4 hb
        obtain ⟨c1, c2, c3, c4⟩ := ih b (fun u hu => hl u (by simp [hu])) b1 b2 b3 (t :: done)
          (fun u hu => by rcases List.mem_cons.1 hu with rfl | hu; exacts [htp, hdone u hu]) b4 r hb
        refine ⟨c1, c2, c3, fun u hu => c4 u ?_⟩
        rcases hu with hu | hu
        · exact .inl (List.mem_cons_of_mem _ hu)
        · rcases List.mem_cons.1 hu with rfl | hu
          · exact .inl (by simp)
          · exact .inr hu
      cases hlast : t.1.data.getLast? with
      | none =>
        rw [hlast] at hr
        have hnil := List.getLast?_eq_none_iff.1 hlast
        refine comb a h1 h2 h3 (fun u hu => ?_) hr
        rcases List.mem_cons.1 hu with rfl | hu
        · rw [hnil]; exact ⟨by simp, by rw [E_nil]; exact h1⟩
        · exact h4 u hu
      | some x =>
        rw [hlast] at hr
        obtain ⟨init, hinit⟩ := List.getLast?_eq_some_iff.1 hlast
        have hxm : x ∈ t.1.data := by rw [hinit]; simp
        have hxv : x.1 ∈ (val p).vars := (mem_vars_iff ho hp).2 ⟨t, htp, x, hxm, rfl⟩
        have hxE : E t.1.data x.1 = x.2 := E_mem ho hv.sorted hxm
        have hxpos := hv.pos x hxm
        have hbelow : ∀ y ∈ t.1.data, y.1 = x.1 ∨ vc y.1 x.1 = true := by
          intro y hy
          have hs := hv.sorted
          rw [hinit] at hs hy
          rcases List.mem_append.1 hy with hy | hy
          · exact .inr ((List.pairwise_append.1 hs).2.2 y hy x (by simp))
          · rw [List.mem_singleton] at hy; exact .inl (by rw [hy])
        have hzero : ∀ u ∈ p, ∀ w, (∀ y ∈ u.1.data, y.1 ≠ w) → E u.1.data w = 0 := by
          intro u _ w hw
          by_contra hc
          obtain ⟨y, hy, e⟩ := exists_of_E hc
          exact hw y hy e
        simp only at hr
        by_cases c1 : vc a.1 x.1 = true
        · rw [if_pos c1] at hr
          refine comb x hxpos.le hxv ⟨t, htp, hxE⟩ (fun u hu => ?_) hr
          rcases List.mem_cons.1 hu with rfl | hu
          · exact ⟨hbelow, hxE.le⟩
          · have hlt : ∀ y ∈ u.1.data, vc y.1 x.1 = true := fun y hy => by
              rcases (h4 u hu).1 y hy with e | e
              · rw [e]; exact c1
              · exact ho.trans _ _ _ trivial trivial trivial e c1
            refine ⟨fun y hy => .inr (hlt y hy), ?_⟩
            rw [hzero u (hdone u hu) x.1 fun y hy e => by have := hlt y hy; rw [e, ho.irrefl _ trivial] at this; simp at this]
            exact hxpos.le
        · rw [if_neg c1] at hr
          by_cases c2 : a.1 = x.1 ∧ a.2 < x.2
          · rw [if_pos c2] at hr
            refine comb (a.1, x.2) hxpos.le h2 ⟨t, htp, by show E t.1.data a.1 = x.2; rw [c2.1]; exact hxE⟩ (fun u hu => ?_) hr
            rcases List.mem_cons.1 hu with rfl | hu
            · refine ⟨fun y hy => ?_, ?_⟩
              · show y.1 = a.1 ∨ _
                rw [c2.1]; exact hbelow y hy
              · show E _ a.1 ≤ x.2
                rw [c2.1, hxE]
            · exact ⟨(h4 u hu).1, (h4 u hu).2.trans c2.2.le⟩
          · rw [if_neg c2] at hr
            refine comb a h1 h2 h3 (fun u hu => ?_) hr
            rcases List.mem_cons.1 hu with rfl | hu
            · by_cases e : a.1 = x.1
              · refine ⟨fun y hy => by rw [e]; exact hbelow y hy, ?_⟩
                rw [e, hxE]
                by_contra hc
                exact c2 ⟨e, by omega⟩
              · have hxa : vc x.1 a.1 = true := by
                  rcases ho.total _ _ trivial trivial e with h | h
                  · exact absurd h c1
                  · exact h
                have hlt : ∀ y ∈ u.1.data, vc y.1 a.1 = true := fun y hy => by
                  rcases hbelow y hy with e | e
                  · rw [e]; exact hxa
                  · exact ho.trans _ _ _ trivial trivial trivial e hxa
                refine ⟨fun y hy => .inr (hlt y hy), ?_⟩
                rw [hzero u htp a.1 fun y hy e => by have := hlt y hy; rw [e, ho.irrefl _ trivial] at this; simp at this]
                exact h1
            · exact h4 u hu
  obtain ⟨f1, f2, f3⟩ := first_spec ho hp h
  have hex : ∃ t ∈ p, E t.1.data (pFirstVar p) = pFirstDeg p := by
    rw [f3]
    exact hp.exists_exp M (fun e => h (by rw [e]; rfl)) _
  obtain ⟨r1, r2, ⟨t, ht, r3⟩, r4⟩ := key p (pFirstVar p, pFirstDeg p) (fun t ht => ht) (by show 0 ≤ pFirstDeg p; omega) (first_mem ho hp h) hex [] (by simp) (by simp) _ rfl
  refine ⟨r2, fun w hw => ?_, ?_⟩
  · obtain ⟨u, hu, x, hx, rfl⟩ := (mem_vars_iff ho hp).1 hw
    exact (r4 u (.inr hu)).1 x hx
  · exact degreeOf_eq_of M hp _ (fun t ht => (r4 t (.inr ht)).2) (.inr ⟨t, ht, r3⟩)

end

/-! ## substitution of the last variable -/

section
variable {R : Type*} [CommRing R]

/-- `v := x` -/
noncomputable def evV (v : Var) (x : R) : MvPolynomial Var R →+* MvPolynomial Var R := eval₂Hom C fun w => if w = v then C x else X w

theorem evV_monomial (v : Var) (x : R) (s : Var →₀ ℕ) (a : R) : evV v x (monomial s a) = monomial (s.erase v) (a * x ^ s v) := by
  have hs : monomial s a = C a * (monomial (s.erase v) 1 * X v ^ s v) := by
    rw [X_pow_eq_monomial, monomial_mul, C_mul_monomial, mul_one, mul_one, Finsupp.erase_add_single]
  have h2 : evV v x (monomial (s.erase v) (1 : R)) = monomial (s.erase v) 1 := by
    rw [monomial_eq, C_1, one_mul, Finsupp.prod, map_prod]
    refine Finset.prod_congr rfl fun w hw => ?_
    have : w ≠ v := by rintro rfl; simp at hw
    rw [map_pow]
    simp [evV, this]
  rw [hs, map_mul, map_mul, map_pow, h2]
  have h3 : evV v x (C a) = C a := by simp [evV]
  have h4 : evV v x (X v : MvPolynomial Var R) = C x := by simp [evV]
  rw [h3, h4, ← C_pow, mul_comm (monomial _ _), C_mul_monomial, C_mul_monomial, mul_one]

theorem evV_support {v : Var} {x : R} {f : MvPolynomial Var R} {t : Var →₀ ℕ} (h : coeff t (evV v x f) ≠ 0) : ∃ s, coeff s f ≠ 0 ∧ s.erase v = t := by
  classical
  rw [f.as_sum, map_sum, coeff_sum] at h
  obtain ⟨s, hs, hc⟩ := Finset.exists_ne_zero_of_sum_ne_zero h
  rw [evV_monomial, coeff_monomial] at hc
  refine ⟨s, mem_support_iff.1 hs, ?_⟩
  by_contra hne
  rw [if_neg hne] at hc
  exact hc rfl

theorem degreeOf_le_of_support {f : MvPolynomial Var R} {S : Type*} [CommRing S] {g : MvPolynomial Var S} {w : Var}
    (h : ∀ t, coeff t g ≠ 0 → ∃ s, coeff s f ≠ 0 ∧ t w ≤ s w) : g.degreeOf w ≤ f.degreeOf w := by
  rw [degreeOf_le_iff]
  intro t ht
  obtain ⟨s, h1, h2⟩ := h t (mem_support_iff.1 ht)
  exact h2.trans (monomial_le_degreeOf w (mem_support_iff.2 h1))

theorem degreeOf_evV (v w : Var) (x : R) (f : MvPolynomial Var R) : (evV v x f).degreeOf w ≤ f.degreeOf w := by
  refine degreeOf_le_of_support fun t ht => ?_
  obtain ⟨s, h1, rfl⟩ := evV_support ht
  refine ⟨s, h1, ?_⟩
  by_cases hw : w = v
  · subst hw; simp
  · rw [Finsupp.erase_ne hw]

theorem degreeOf_evV_self (v : Var) (x : R) (f : MvPolynomial Var R) : (evV v x f).degreeOf v = 0 := by
  rw [← Nat.le_zero, degreeOf_le_iff]
  intro t ht
  obtain ⟨s, h1, rfl⟩ := evV_support (mem_support_iff.1 ht)
  simp

theorem vars_evV (v : Var) (x : R) (f : MvPolynomial Var R) : (evV v x f).vars ⊆ f.vars := by
  intro w hw
  by_contra hc
  have := degreeOf_evV v w x f
  rw [degreeOf_zero_iff.2 hc] at this
  exact (degreeOf_zero_iff.1 (Nat.le_zero.1 this)) hw

theorem not_mem_vars_evV (v : Var) (x : R) (f : MvPolynomial Var R) : v ∉ (evV v x f).vars := degreeOf_zero_iff.1 (degreeOf_evV_self v x f)

theorem degreeOf_map_le' {S : Type*} [CommRing S] (φ : R →+* S) (w : Var) (f : MvPolynomial Var R) : (map φ f).degreeOf w ≤ f.degreeOf w := by
  refine degreeOf_le_of_support fun t ht => ⟨t, fun h => ht ?_, le_rfl⟩
  rw [coeff_map, h, map_zero]

theorem vars_map_le {S : Type*} [CommRing S] (φ : R →+* S) (f : MvPolynomial Var R) : (map φ f).vars ⊆ f.vars := by
  intro w hw
  by_contra hc
  have := degreeOf_map_le' φ w f
  rw [degreeOf_zero_iff.2 hc] at this
  exact (degreeOf_zero_iff.1 (Nat.le_zero.1 this)) hw

variable [DecidableEq R]

/-- substitution for the last variable keeps the normal form -/
theorem image_spec (ho : VarOrd vc) {v : Var} {x : R} {p : PV Mono R} (hp : LP vc p) (hv : ∀ w ∈ (val p).vars, w = v ∨ vc w v = true) :
    LP vc (assign vc (lexGt vc) id (fun w => if w = v then some x else none) p) ∧
      val (assign vc (lexGt vc) id (fun w => if w = v then some x else none) p) = evV v x (val p) := by
  have M := lex_ord ho
  refine ⟨?_, ?_⟩
  · cases p with
    | nil => exact .nil
    | cons t p =>
      have weak : ∀ a ∈ t :: p, ∀ b ∈ t :: p, lexGt vc a.1 b.1 = true →
          (assignTerm id (fun w => if w = v then some x else none) a).1 = (assignTerm id (fun w => if w = v then some x else none) b).1 ∨
          lexGt vc (assignTerm id (fun w => if w = v then some x else none) a).1 (assignTerm id (fun w => if w = v then some x else none) b).1 = true := by
        intro a ha b hb hab
        have va := assignTerm_valid (vc := vc) (id : R → R) (fun w => if w = v then some x else none) (hp.monos a ha)
        have vb := assignTerm_valid (vc := vc) (id : R → R) (fun w => if w = v then some x else none) (hp.monos b hb)
        have ea : ∀ u, E (assignTerm id (fun w => if w = v then some x else none) a).1.data u = if u = v then 0 else E a.1.data u := fun u => by
          refine (E_filter_kept (fun w => if w = v then some x else none) _ u).trans ?_
          by_cases hu : u = v <;> simp [hu]
        have eb : ∀ u, E (assignTerm id (fun w => if w = v then some x else none) b).1.data u = if u = v then 0 else E b.1.data u := fun u => by
          refine (E_filter_kept (fun w => if w = v then some x else none) _ u).trans ?_
          by_cases hu : u = v <;> simp [hu]
        obtain ⟨u, h1, h2⟩ := (lexGt_iff ho (hp.monos a ha) (hp.monos b hb)).1 hab
        by_cases hu : u = v
        · left
          refine va.ext ho vb fun w => ?_
          rw [ea, eb]
          by_cases hw : w = v
          · rw [if_pos hw, if_pos hw]
          · rw [if_neg hw, if_neg hw]
            by_cases hwv : vc w v = true
            · rw [h2 w (hu ▸ hwv)]
            · have hz : ∀ t' ∈ t :: p, E t'.1.data w = 0 := by
                intro t' ht'
                by_contra hc
                obtain ⟨y, hy, e⟩ := exists_of_E hc
                rcases hv w ((mem_vars_iff ho hp).2 ⟨t', ht', y, hy, e⟩) with h | h
                · exact hw h
                · exact hwv h
              rw [hz a ha, hz b hb]
        · right
          rw [lexGt_iff ho va vb]
          refine ⟨u, by rw [ea, eb, if_neg hu, if_neg hu]; exact h1, fun w hw => ?_⟩
          rw [ea, eb, h2 w hw]
      have hw := hp.canon.1.imp_of_mem fun {a b} ha hb hab => weak a ha b hb hab
      have hw' := List.pairwise_cons.1 hw
      have := assignLoop_ok M (id : R → R) (fun w => if w = v then some x else none) p (fun t ht => hp.monos t (List.mem_cons_of_mem _ ht)) hw'.2 (assignTerm id _ t) [] .nil
        (assignTerm_valid id _ (hp.monos t (by simp))) (by simp) fun u hu => hw'.1 u hu
      show PolyOK vc (lexGt vc) (polyNormalize vc (lexGt vc) _)
      rw [polyNormalize_id M this]
      exact this
  · have := (assign_spec M (RingHom.id R) (fun w => if w = v then some x else none) (p := p) (fun t ht y hy => ((hp.monos t ht).pos y hy).le)).2
    refine this.trans ?_
    show eval₂ (C.comp (RingHom.id R)) _ _ = eval₂ C _ _
    rw [RingHom.comp_id]
    congr 1
    funext w
    unfold substOf
    by_cases hw : w = v <;> simp [hw]

end

/-! ## divisions -/

theorem coefDivZ_ok : CoefDiv coefDivZ where
  div lc _ k := by simp only [coefDivZ]; rw [Int.fdiv_mul_add_fmod]
  exact lc h q := by simp only [coefDivZ]; rw [Int.mul_fdiv_cancel _ h, Int.mul_fmod_left]

section
variable {R : Type*} [CommRing R] [DecidableEq R]

theorem polyDiv_mono {C : OrderCode R} {divc : R → R → R × R} {p q : PV Mono R} {fuel : ℕ} {r} (h : polyDiv vc C divc fuel p q = some r) (d : ℕ) :
    polyDiv vc C divc (fuel + d) p q = some r := by
  letI : Inhabited R := ⟨0⟩
  match q, h with
  | [], h => exact h
  | [t], h => exact h
  | a :: b :: w, h =>
    unfold polyDiv at h ⊢
    simp only at h ⊢
    split
    · rename_i hc; rw [if_pos hc] at h; exact h
    · rename_i hc
      rw [if_neg hc] at h
      cases hcan : C.can true p (a :: b :: w) with
      | none =>
        rw [hcan] at h
        simp only [Option.map_eq_some_iff] at h ⊢
        obtain ⟨x, h1, h2⟩ := h
        exact ⟨x, divLoop_mono fuel _ _ h1 d, h2⟩
      | some vars =>
        rw [hcan] at h
        simp only [Option.map_eq_some_iff, packedDiv] at h ⊢
        obtain ⟨x, ⟨y, h1, h3⟩, h2⟩ := h
        exact ⟨x, ⟨y, divLoop_mono fuel _ _ h1 d, h3⟩, h2⟩

theorem polyDivRem_mono {C : OrderCode R} {divc : R → R → R × R} {p q : PV Mono R} {fuel : ℕ} {r} (h : polyDivRem vc C divc fuel p q = some r) (d : ℕ) :
    polyDivRem vc C divc (fuel + d) p q = some r := by
  letI : Inhabited R := ⟨0⟩
  match q, h with
  | [], h => exact h
  | [t], h => exact h
  | a :: b :: w, h =>
    unfold polyDivRem at h ⊢
    simp only at h ⊢
    split
    · rename_i hc; rw [if_pos hc] at h; exact h
    · rename_i hc
      rw [if_neg hc] at h
      cases hcan : C.can true p (a :: b :: w) with
      | none =>
        rw [hcan] at h
        simp only [Option.map_eq_some_iff] at h ⊢
        obtain ⟨x, h1, h2⟩ := h
        exact ⟨x, divLoop_mono fuel _ _ h1 d, h2⟩
      | some vars =>
        rw [hcan] at h
        simp only [Option.map_eq_some_iff, packedDiv] at h ⊢
        obtain ⟨x, ⟨y, h1, h3⟩, h2⟩ := h
        exact ⟨x, ⟨y, divLoop_mono fuel _ _ h1 d, h3⟩, h2⟩

end

end Mgcd
end CLPoly
