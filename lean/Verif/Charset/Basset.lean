import Verif.Charset.Defs
import Verif.Gcd.Lists
import Verif.Gcd.Theory
import Verif.Poly.PremSpec

/-! # Rank, reduction and basic sets -/

namespace CLPoly
namespace Charset
open Mono MvPolynomial Mgcd

variable {vc : Var → Var → Bool} {R : Type*} [CommRing R] [DecidableEq R]

/-! ## vocabulary -/

/-- `v` is the main variable of `f`: it occurs in `f` and precedes all other variables of `f` -/
def IsMain (vc : Var → Var → Bool) (f : MvPolynomial Var R) (v : Var) : Prop := v ∈ f.vars ∧ ∀ w ∈ f.vars, w = v ∨ vc v w = true

/-- `f` has lower rank than `g`: a constant is lower than a polynomial that is not constant; otherwise the main variable decides (later variables are lower), then the degree in it -/
def RankLt (vc : Var → Var → Bool) (f g : MvPolynomial Var R) : Prop :=
  g.vars ≠ ∅ ∧ (f.vars = ∅ ∨ ∃ v w, IsMain vc f v ∧ IsMain vc g w ∧ (vc w v = true ∨ v = w ∧ f.degreeOf v < g.degreeOf v))

/-- `f` is reduced with respect to `g`: lower degree in the main variable of `g` -/
def RedTo (vc : Var → Var → Bool) (f g : MvPolynomial Var R) : Prop := ∃ v, IsMain vc g v ∧ f.degreeOf v < g.degreeOf v

/-- ascending chain: no constants, main variables strictly increasing, every element reduced with respect to those before it -/
def AscChain (vc : Var → Var → Bool) (L : List (MvPolynomial Var R)) : Prop :=
  (∀ c ∈ L, c.vars ≠ ∅) ∧ L.Pairwise fun c d => RedTo vc d c ∧ ∃ v w, IsMain vc c v ∧ IsMain vc d w ∧ vc w v = true

/-- the initial of `f`: the coefficient of the highest power of the main variable -/
def IsInit (vc : Var → Var → Bool) (f I : MvPolynomial Var R) : Prop := ∃ v, IsMain vc f v ∧ IsCoeff v (f.degreeOf v) f I

/-! ## first variables -/

theorem asymm (ho : VarOrd vc) {a b : Var} (h : vc a b = true) : vc b a = false := by
  by_contra h'
  have := ho.trans a b a trivial trivial trivial h (by simpa using h')
  rw [ho.irrefl a trivial] at this; exact absurd this (by simp)

theorem IsMain.unique (ho : VarOrd vc) {f : MvPolynomial Var R} {v w : Var} (h : IsMain vc f v) (h' : IsMain vc f w) : v = w := by
  rcases h.2 w h'.1 with e | e
  · exact e.symm
  rcases h'.2 v h.1 with e' | e'
  · exact e'
  · rw [asymm ho e] at e'; exact absurd e' (by simp)

theorem IsMain.ne {f : MvPolynomial Var R} {v : Var} (h : IsMain vc f v) : f.vars ≠ ∅ := Finset.ne_empty_of_mem h.1

variable {p q : PV Mono R}

theorem num_iff (ho : VarOrd vc) (hp : LP vc p) : isNumber p = true ↔ (val p).vars = ∅ := by
  rw [isNumber_iff (lex_ord ho) hp]
  constructor
  · rintro ⟨c, h⟩; rw [h, vars_C]
  · intro h
    exact ⟨_, vars_eq_empty_iff_eq_C.1 h⟩

theorem num_false (ho : VarOrd vc) (hp : LP vc p) : isNumber p = false ↔ (val p).vars ≠ ∅ := by
  rw [Ne, ← num_iff ho hp]; simp

theorem main_spec (ho : VarOrd vc) (hp : LP vc p) (h : isNumber p = false) :
    IsMain vc (val p) (pFirstVar p) ∧ pFirstDeg p = (val p).degreeOf (pFirstVar p) := by
  cases p with
  | nil => simp [isNumber] at h
  | cons t p =>
    cases hd : t.1.data with
    | nil =>
      exfalso
      have h1 := (num_false ho hp).1 h
      obtain ⟨w, hw⟩ := Finset.nonempty_iff_ne_empty.2 h1
      have ht : Top vc w (t :: p) := by
        have hc := hp.canon.1
        cases p with
        | nil => simp [isNumber, hd] at h
        | cons s p =>
          exfalso
          have hlt := (List.pairwise_cons.1 hc).1 s (by simp)
          rw [lexGt, hd] at hlt
          simp [pvComp] at hlt
      rw [mem_vars_iff ho hp] at hw
      obtain ⟨s, hs, x, hx, rfl⟩ := hw
      have hc := hp.canon.1
      rcases List.mem_cons.1 hs with rfl | hs
      · rw [hd] at hx; simp at hx
      · have hlt := (List.pairwise_cons.1 hc).1 s hs
        rw [lexGt, hd] at hlt
        simp [pvComp] at hlt
    | cons x l =>
      have e1 : pFirstVar (t :: p) = x.1 := by show firstVar t.1 = _; unfold firstVar; rw [hd]
      have ht := lex_first ho hp hd
      have h2 := top_first ho hp ht
      rw [if_pos e1] at h2
      rw [e1]
      refine ⟨⟨(mem_vars_iff ho hp).2 ⟨t, by simp, x, by rw [hd]; simp, rfl⟩, (top_iff ho hp).1 ht⟩, h2⟩

theorem main_num {v : Var} (ho : VarOrd vc) (hp : LP vc p) (h : IsMain vc (val p) v) : isNumber p = false ∧ pFirstVar p = v := by
  have h1 := (num_false ho hp).2 h.ne
  exact ⟨h1, (main_spec ho hp h1).1.unique ho h⟩

theorem isReduced_iff (ho : VarOrd vc) (hp : LP vc p) (hq : LP vc q) (h0 : p ≠ []) :
    isReduced vc p q = true ↔ (val p).vars ≠ ∅ ∧ RedTo vc (val p) (val q) := by
  unfold isReduced
  rw [if_neg h0]
  by_cases hn : isNumber q = true
  · rw [if_pos hn]
    simp only [Bool.false_eq_true, false_iff, not_and]
    rintro - ⟨v, hv, -⟩
    exact hv.ne ((num_iff ho hq).1 hn)
  rw [if_neg hn]
  rw [Bool.not_eq_true] at hn
  by_cases hm : isNumber p = true
  · rw [if_pos hm, (num_iff ho hp).1 hm]; simp
  rw [if_neg hm]
  rw [Bool.not_eq_true] at hm
  obtain ⟨m1, m2⟩ := main_spec ho hq hn
  rw [decide_eq_true_iff, degreeLex_spec ho hp, m2, Nat.cast_lt]
  constructor
  · intro h; exact ⟨(num_false ho hp).1 hm, _, m1, h⟩
  · rintro ⟨-, v, hv, h⟩
    rw [m1.unique ho hv]; exact h

theorem rankLess_code {F G : PV Mono R} : rankLess vc F G = true ↔ isNumber G = false ∧ (isNumber F = true ∨ vc (pFirstVar G) (pFirstVar F) = true ∨
    pFirstVar F = pFirstVar G ∧ pFirstDeg F < pFirstDeg G) := by
  unfold rankLess
  by_cases h1 : isNumber G = true
  · rw [if_pos h1]; simp [h1]
  rw [if_neg h1]
  by_cases h2 : isNumber F = true
  · rw [if_pos h2]; simp [h1, h2]
  rw [if_neg h2]
  by_cases h3 : vc (pFirstVar G) (pFirstVar F) = true
  · rw [if_pos h3]; simp [h1, h3]
  rw [if_neg h3]
  by_cases h4 : pFirstVar F ≠ pFirstVar G
  · rw [if_pos h4]; simp [h2, h3, h4]
  rw [if_neg h4]
  push Not at h4
  rw [decide_eq_true_iff]
  simp [h1, h2, h4, (show vc (pFirstVar G) (pFirstVar G) ≠ true by rw [h4] at h3; exact h3)]

theorem rankLess_iff (ho : VarOrd vc) (hp : LP vc p) (hq : LP vc q) : rankLess vc p q = true ↔ RankLt vc (val p) (val q) := by
  rw [rankLess_code, RankLt, num_false ho hq, num_iff ho hp]
  refine and_congr_right fun hn => ?_
  by_cases hm : (val p).vars = ∅
  · simp [hm]
  obtain ⟨m1, m2⟩ := main_spec ho hp ((num_false ho hp).2 hm)
  obtain ⟨n1, n2⟩ := main_spec ho hq ((num_false ho hq).2 hn)
  simp only [hm, false_or]
  constructor
  · rintro (h | ⟨h, h'⟩)
    · exact ⟨_, _, m1, n1, .inl h⟩
    · refine ⟨_, _, m1, n1, .inr ⟨h, ?_⟩⟩
      rw [m2, n2, Nat.cast_lt] at h'
      rwa [← h] at h'
  · rintro ⟨v, w, hv, hw, h⟩
    rw [m1.unique ho hv, n1.unique ho hw] at *
    rcases h with h | ⟨rfl, h⟩
    · exact .inl h
    · exact .inr ⟨rfl, by rw [m2, n2]; exact_mod_cast h⟩

theorem rankLess_trans (ho : VarOrd vc) {a b c : PV Mono R} (h : rankLess vc a b = true) (h' : rankLess vc b c = true) : rankLess vc a c = true := by
  rw [rankLess_code] at *
  obtain ⟨h1, h2⟩ := h
  obtain ⟨h3, h4⟩ := h'
  refine ⟨h3, ?_⟩
  rcases h2 with h2 | h2
  · exact .inl h2
  right
  rcases h4 with h4 | h4
  · rw [h1] at h4; exact absurd h4 (by simp)
  rcases h2 with h2 | ⟨h2, h2'⟩ <;> rcases h4 with h4 | ⟨h4, h4'⟩
  · exact .inl (ho.trans _ _ _ trivial trivial trivial h4 h2)
  · rw [h4] at h2; exact .inl h2
  · rw [← h2] at h4; exact .inl h4
  · exact .inr ⟨h2.trans h4, by omega⟩

theorem minRank_spec (ho : VarOrd vc) : ∀ (fs : List (PV Mono R)) (b : PV Mono R), minRank vc b fs ∈ b :: fs ∧ ∀ x ∈ b :: fs, rankLess vc x (minRank vc b fs) = false := by
  intro fs
  induction fs with
  | nil =>
    intro b
    refine ⟨by simp [minRank], fun x hx => ?_⟩
    rw [List.mem_singleton] at hx
    subst hx
    show rankLess vc x x = false
    rw [Bool.eq_false_iff, Ne, rankLess_code]
    rintro ⟨h, h' | h' | h'⟩
    · rw [h] at h'; exact absurd h' (by simp)
    · rw [ho.irrefl _ trivial] at h'; exact absurd h' (by simp)
    · exact absurd h'.2 (lt_irrefl _)
  | cons f fs ih =>
    intro b
    unfold minRank
    by_cases h : rankLess vc f b = true
    · rw [if_pos h]
      obtain ⟨h1, h2⟩ := ih f
      refine ⟨List.mem_cons_of_mem _ h1, fun x hx => ?_⟩
      rcases List.mem_cons.1 hx with rfl | hx
      · rw [Bool.eq_false_iff]
        intro h3
        have := h2 f (by simp)
        rw [rankLess_trans ho h h3] at this; exact absurd this (by simp)
      · exact h2 x hx
    · rw [if_neg h]
      obtain ⟨h1, h2⟩ := ih b
      refine ⟨?_, fun x hx => ?_⟩
      · rcases List.mem_cons.1 h1 with h1 | h1
        · rw [h1]; simp
        · simp [h1]
      · rcases List.mem_cons.1 hx with rfl | hx
        · exact h2 x (by simp)
        rcases List.mem_cons.1 hx with rfl | hx
        · rw [Bool.eq_false_iff]
          intro h3
          rcases List.mem_cons.1 h1 with h4 | h4
          · rw [h4] at h3; exact h h3
          · -- the minimum was found later: it is not above `b`
            have h5 := h2 b (by simp)
            rw [Bool.eq_false_iff] at h5
            -- `f` is not below `b`, `b` is not below the minimum
            rw [rankLess_code] at h
            rw [Ne, rankLess_code] at h5
            rw [rankLess_code] at h3
            obtain ⟨g1, g2⟩ := h3
            apply h
            push Not at h5 h
            obtain ⟨k1, k2, k3⟩ := h5 g1
            have k1' : isNumber b = false := by simpa using k1
            refine ⟨k1', ?_⟩
            rcases g2 with g2 | g2 | ⟨g2, g2'⟩
            · exact .inl g2
            · right; left
              by_cases e : pFirstVar b = pFirstVar (minRank vc b fs)
              · rw [e]; exact g2
              · rcases ho.total _ _ trivial trivial e with e' | e'
                · exact ho.trans _ _ _ trivial trivial trivial e' g2
                · exact absurd e' k2
            · by_cases e : pFirstVar b = pFirstVar (minRank vc b fs)
              · have := k3 e
                exact .inr (.inr ⟨g2.trans e.symm, by omega⟩)
              · rcases ho.total _ _ trivial trivial e with e' | e'
                · rw [← g2] at e'; exact .inr (.inl e')
                · exact absurd e' k2
        · exact h2 x (List.mem_cons_of_mem _ hx)

/-! ## basic sets -/

/-- canonical and not zero -/
def Good (vc : Var → Var → Bool) (F : List (PV Mono R)) : Prop := ∀ f ∈ F, LP vc f ∧ f ≠ []

theorem self_not_reduced (ho : VarOrd vc) (hp : LP vc p) (h0 : p ≠ []) : isReduced vc p p = false := by
  rw [Bool.eq_false_iff, Ne, isReduced_iff ho hp hp h0]
  rintro ⟨-, v, -, h⟩; exact lt_irrefl _ h

/-- what `basset` returns -/
structure IsBasset (vc : Var → Var → Bool) (F B : List (PV Mono R)) : Prop where
  sub : ∀ b ∈ B, b ∈ F
  max : ∀ f ∈ F, ∃ b ∈ B, isReduced vc f b = false
  chain : (∃ c, B = [c] ∧ isNumber c = true) ∨ AscChain vc (B.map val)
  num : ∀ f ∈ F, isNumber f = true → ∃ c, B = [c] ∧ isNumber c = true

theorem bassetLoop_spec (ho : VarOrd vc) : ∀ (n : ℕ) (F : List (PV Mono R)), Good vc F → F.length ≤ n → ∃ B, bassetLoop vc n F = some B ∧ IsBasset vc F B := by
  intro n
  induction n with
  | zero =>
    intro F _ hn
    rw [List.length_eq_zero_iff.1 (Nat.le_zero.1 hn)]
    exact ⟨[], rfl, ⟨by simp, by simp, .inr ⟨by simp, by simp⟩, by simp⟩⟩
  | succ n ih =>
    intro F hF hn
    cases F with
    | nil => exact ⟨[], rfl, ⟨by simp, by simp, .inr ⟨by simp, by simp⟩, by simp⟩⟩
    | cons f fs =>
      obtain ⟨b, hb⟩ : ∃ b, b = minRank vc f fs := ⟨_, rfl⟩
      obtain ⟨m1, m2⟩ := minRank_spec ho fs f
      rw [← hb] at m1 m2
      obtain ⟨b1, b2⟩ := hF b m1
      obtain ⟨F', hF'⟩ : ∃ F', F' = (f :: fs).filter fun i => isReduced vc i b := ⟨_, rfl⟩
      have g' : Good vc F' := fun x hx => by rw [hF'] at hx; exact hF x (List.mem_filter.1 hx).1
      have hlen : F'.length ≤ n := by
        have : F'.length < (f :: fs).length := by
          rw [hF']
          refine List.length_filter_lt_length_iff_exists.2 ⟨b, m1, ?_⟩
          rw [self_not_reduced ho b1 b2]; simp
        omega
      obtain ⟨B, e, h⟩ := ih F' g' hlen
      refine ⟨b :: B, ?_, ?_⟩
      · show (bassetLoop vc n ((f :: fs).filter fun i => isReduced vc i (minRank vc f fs))).map (minRank vc f fs :: ·) = _
        rw [← hb, ← hF', e]; rfl
      have red : ∀ x ∈ B, x ∈ f :: fs ∧ isReduced vc x b = true := fun x hx => by
        have := h.sub x hx
        rw [hF'] at this
        simpa using List.mem_filter.1 this
      have numB : isNumber b = true → B = [] := by
        intro hnb
        rw [List.eq_nil_iff_forall_not_mem]
        intro x hx
        obtain ⟨r1, r2⟩ := red x hx
        rw [isReduced_iff ho (hF x r1).1 b1 (hF x r1).2] at r2
        obtain ⟨-, v, hv, -⟩ := r2
        exact hv.ne ((num_iff ho b1).1 hnb)
      refine ⟨?_, ?_, ?_, ?_⟩
      · intro x hx
        rcases List.mem_cons.1 hx with rfl | hx
        · exact m1
        · exact (red x hx).1
      · intro x hx
        by_cases hr : isReduced vc x b = true
        · obtain ⟨c, hc, hc'⟩ := h.max x (by rw [hF']; exact List.mem_filter.2 ⟨hx, hr⟩)
          exact ⟨c, List.mem_cons_of_mem _ hc, hc'⟩
        · exact ⟨b, by simp, by simpa using hr⟩
      · by_cases hnb : isNumber b = true
        · left; exact ⟨b, by rw [numB hnb], hnb⟩
        right
        rw [Bool.not_eq_true] at hnb
        have notnum : ∀ x ∈ f :: fs, isNumber x = false := by
          intro x hx
          have := m2 x hx
          rw [Bool.eq_false_iff, Ne, rankLess_code] at this
          push Not at this
          simpa using (this hnb).1
        have hB : AscChain vc (B.map val) := by
          rcases h.chain with ⟨c, rfl, hc⟩ | hB
          · rw [notnum c (red c (by simp)).1] at hc; exact absurd hc (by simp)
          · exact hB
        rw [List.map_cons]
        refine ⟨?_, ?_⟩
        · intro c hc
          rcases List.mem_cons.1 hc with rfl | hc
          · exact (num_false ho b1).1 hnb
          · exact hB.1 c hc
        · refine List.pairwise_cons.2 ⟨?_, hB.2⟩
          intro c hc
          obtain ⟨x, hx, rfl⟩ := List.mem_map.1 hc
          obtain ⟨r1, r2⟩ := red x hx
          rw [isReduced_iff ho (hF x r1).1 b1 (hF x r1).2] at r2
          refine ⟨r2.2, ?_⟩
          obtain ⟨mb, db⟩ := main_spec ho b1 hnb
          obtain ⟨mx, dx⟩ := main_spec ho (hF x r1).1 (notnum x r1)
          refine ⟨_, _, mb, mx, ?_⟩
          have h3 := m2 x r1
          rw [Bool.eq_false_iff, Ne, rankLess_code] at h3
          push Not at h3
          obtain ⟨-, h4, h5⟩ := h3 hnb
          by_cases e : pFirstVar x = pFirstVar b
          · exfalso
            have := h5 e
            obtain ⟨-, v, hv, hlt⟩ := r2
            rw [← mb.unique ho hv, ] at hlt
            rw [dx, db, e] at this
            omega
          · rcases ho.total _ _ trivial trivial e with e' | e'
            · exact e'
            · exact absurd e' h4
      · intro x hx hnx
        have := m2 x hx
        rw [Bool.eq_false_iff, Ne, rankLess_code] at this
        have hnb : isNumber b = true := by
          by_contra h'
          exact this ⟨by simpa using h', .inl hnx⟩
        exact ⟨b, by rw [numB hnb], hnb⟩

theorem basset_spec (ho : VarOrd vc) {F : List (PV Mono R)} (hF : Good vc F) : ∃ B, basset vc F = some B ∧ IsBasset vc F B :=
  bassetLoop_spec ho _ F hF le_rfl

theorem bassetLoop_mono {m : ℕ} : ∀ {n : ℕ} {F B : List (PV Mono R)}, n ≤ m → bassetLoop vc n F = some B → bassetLoop vc m F = some B := by
  induction m with
  | zero => intro n F B h e; rw [Nat.le_zero.1 h] at e; exact e
  | succ m ih =>
    intro n F B h e
    cases F with
    | nil => rw [bassetLoop] at e ⊢; exact e
    | cons f fs =>
      cases n with
      | zero => simp [bassetLoop] at e
      | succ n =>
        rw [bassetLoop] at e ⊢
        obtain ⟨B', e1, e2⟩ := Option.map_eq_some_iff.1 e
        rw [ih (by omega) e1]; exact congrArg some e2

/-- with the zero polynomial among the elements the loop never ends -/
theorem bassetLoop_zero : ∀ (n : ℕ) (F : List (PV Mono R)), [] ∈ F → bassetLoop vc n F = none := by
  intro n
  induction n with
  | zero =>
    intro F h
    cases F with
    | nil => simp at h
    | cons f fs => rfl
  | succ n ih =>
    intro F h
    cases F with
    | nil => simp at h
    | cons f fs =>
      rw [bassetLoop]
      rw [ih _ (List.mem_filter.2 ⟨h, by simp [isReduced]⟩)]; rfl

/-! ## minimality -/

/-- the chain `D` has lower rank than `B`: the first elements with different ranks decide; an extension of a chain is lower -/
def ChainLt (vc : Var → Var → Bool) : List (MvPolynomial Var R) → List (MvPolynomial Var R) → Prop
  | [], _ => False
  | _ :: _, [] => True
  | d :: D, b :: B => RankLt vc d b ∨ ¬ RankLt vc b d ∧ ChainLt vc D B

omit [DecidableEq R] in
theorem AscChain.tail {d : MvPolynomial Var R} {D : List (MvPolynomial Var R)} (h : AscChain vc (d :: D)) : AscChain vc D :=
  ⟨fun c hc => h.1 c (List.mem_cons_of_mem _ hc), (List.pairwise_cons.1 h.2).2⟩

theorem bassetLoop_min (ho : VarOrd vc) : ∀ (n : ℕ) (F B : List (PV Mono R)), Good vc F → bassetLoop vc n F = some B → ∀ D : List (PV Mono R), (∀ d ∈ D, d ∈ F) →
    AscChain vc (D.map val) → ¬ ChainLt vc (D.map val) (B.map val) := by
  intro n
  induction n with
  | zero =>
    intro F B hF e D hD _ hlt
    cases F with
    | nil =>
      cases D with
      | nil => exact hlt
      | cons d D => exact absurd (hD d (by simp)) (by simp)
    | cons f fs => simp [bassetLoop] at e
  | succ n ih =>
    intro F B hF e D hD hasc hlt
    cases D with
    | nil => exact hlt
    | cons d D =>
    cases F with
    | nil => exact absurd (hD d (by simp)) (by simp)
    | cons f fs =>
      rw [bassetLoop] at e
      obtain ⟨B', e1, e2⟩ := Option.map_eq_some_iff.1 e
      obtain ⟨m1, m2⟩ := minRank_spec ho fs f
      obtain ⟨b, hb⟩ : ∃ b, b = minRank vc f fs := ⟨_, rfl⟩
      rw [← hb] at m1 m2 e1 e2
      subst e2
      have hd := hD d (by simp)
      rcases hlt with h | ⟨h, h'⟩
      · have := m2 d hd
        rw [Bool.eq_false_iff, Ne, rankLess_iff ho (hF d hd).1 (hF b m1).1] at this
        exact this h
      · refine ih _ B' (fun x hx => hF x (List.mem_filter.1 hx).1) e1 D (fun x hx => ?_) hasc.tail h'
        have hxF := hD x (List.mem_cons_of_mem _ hx)
        refine List.mem_filter.2 ⟨hxF, ?_⟩
        rw [isReduced_iff ho (hF x hxF).1 (hF b m1).1 (hF x hxF).2]
        have hp := (List.pairwise_cons.1 hasc.2).1 (val x) (List.mem_map.2 ⟨x, hx, rfl⟩)
        obtain ⟨⟨v, hv, hlt⟩, -⟩ := hp
        refine ⟨hasc.1 _ (List.mem_cons_of_mem _ (List.mem_map.2 ⟨x, hx, rfl⟩)), v, ?_⟩
        -- `b` and `d` have the same rank
        have h1 : ¬ RankLt vc (val d) (val b) := by
          have := m2 d hd
          rwa [Bool.eq_false_iff, Ne, rankLess_iff ho (hF d hd).1 (hF b m1).1] at this
        have bne : (val b).vars ≠ ∅ := fun hbe => h ⟨hv.ne, .inl hbe⟩
        obtain ⟨mb, -⟩ := main_spec ho (hF b m1).1 ((num_false ho (hF b m1).1).2 bne)
        by_cases ev : pFirstVar b = v
        · rw [ev] at mb
          refine ⟨mb, ?_⟩
          by_contra hle
          exact h ⟨hv.ne, .inr ⟨v, v, mb, hv, .inr ⟨rfl, by omega⟩⟩⟩
        · exfalso
          rcases ho.total _ _ trivial trivial ev with e' | e'
          · exact h1 ⟨bne, .inr ⟨_, _, hv, mb, .inl e'⟩⟩
          · exact h ⟨hv.ne, .inr ⟨_, _, mb, hv, .inl e'⟩⟩

end Charset
end CLPoly
