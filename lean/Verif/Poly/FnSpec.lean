import Verif.Poly.FnDefs
import Verif.Poly.ConvertSpec
import Verif.Poly.ScalarSpec
import Mathlib.Data.List.GetD
import Mathlib.Tactic.Linarith
import Mathlib.Tactic.LinearCombination

/-! # Degrees, coefficients, leading coefficients -/

namespace CLPoly
open Mono MvPolynomial
variable {vc : Var → Var → Bool} {mc : Mono → Mono → Bool}

/-- `c` is the coefficient of `v ^ i` in `f`, a polynomial without `v` -/
def IsCoeff {R : Type*} [CommRing R] (v : Var) (i : ℕ) (f c : MvPolynomial Var R) : Prop :=
  ∀ s : Var →₀ ℕ, coeff s c = if s v = 0 then coeff (s + Finsupp.single v i) f else 0

/-- all variables of `m` are `v` or come after `v` -/
def TopM (vc : Var → Var → Bool) (v : Var) (m : Mono) : Prop := ∀ x ∈ m.data, x.1 = v ∨ vc v x.1 = true
/-- all variables of `p` are `v` or come after `v` -/
def Top {R : Type*} (vc : Var → Var → Bool) (v : Var) (p : PV Mono R) : Prop := ∀ t ∈ p, TopM vc v t.1

theorem top_uni {R : Type*} (v : Var) (p : PV Mono R) : Top (varUni v) v p := by
  intro t _ x _
  by_cases h : x.1 = v
  · exact .inl h
  · right; simp [varUni, h]

/-! ## monomials -/

theorem mkMono_valid {d : List (Var × Int)} (h1 : SortedV vc d) (h2 : ∀ x ∈ d, 0 < x.2) : Valid vc (mkMono d) := ⟨h1, h2, rfl⟩

theorem changeData_keys (v : Var) (d : Int) (l : List (Var × Int)) : ∀ x ∈ changeData vc v d l, (x.1 = v ∧ x.2 = d ∧ d ≠ 0) ∨ x ∈ l := by
  induction l with
  | nil => intro x hx; unfold changeData at hx; split at hx <;> simp_all
  | cons y l ih =>
    intro x hx
    unfold changeData at hx
    split at hx
    · split at hx
      · rcases List.mem_cons.1 hx with rfl | hx
        · left; exact ⟨rfl, rfl, by assumption⟩
        · right; simp [hx]
      · right; simp [hx]
    · split at hx
      · split at hx
        · rcases List.mem_cons.1 hx with rfl | hx
          · left; exact ⟨rfl, rfl, by assumption⟩
          · right; exact hx
        · right; exact hx
      · rcases List.mem_cons.1 hx with rfl | hx
        · right; simp
        · rcases ih x hx with h | h
          · exact .inl h
          · right; simp [h]

theorem changeData_sorted (ho : VarOrd vc) (v : Var) (d : Int) (l : List (Var × Int)) (h : SortedV vc l) : SortedV vc (changeData vc v d l) := by
  induction l with
  | nil => unfold changeData; split <;> simp [SortedV]
  | cons y l ih =>
    have hc := List.pairwise_cons.1 h
    unfold changeData
    split
    · rename_i e
      split
      · refine List.pairwise_cons.2 ⟨fun z hz => ?_, hc.2⟩
        show vc v z.1 = true
        rw [e]; exact hc.1 z hz
      · exact hc.2
    · split
      · rename_i h2
        split
        · refine List.pairwise_cons.2 ⟨fun z hz => ?_, h⟩
          rcases List.mem_cons.1 hz with rfl | hz
          · exact h2
          · exact ho.trans _ _ _ trivial trivial trivial h2 (hc.1 z hz)
        · exact h
      · rename_i hne hnv
        refine List.pairwise_cons.2 ⟨fun z hz => ?_, ih hc.2⟩
        rcases changeData_keys v d l z hz with ⟨e, _⟩ | hz
        · rw [e]
          rcases ho.total _ _ trivial trivial hne with h | h
          · exact absurd h hnv
          · exact h
        · exact hc.1 z hz

theorem E_changeData (ho : VarOrd vc) (v : Var) (d : Int) (l : List (Var × Int)) (h : SortedV vc l) (u : Var) :
    E (changeData vc v d l) u = if u = v then d else E l u := by
  induction l with
  | nil =>
    unfold changeData
    split
    · rw [E_cons, E_nil]
      by_cases e : v = u
      · simp [e]
      · simp [e, Ne.symm e]
    · rename_i hd
      have : d = 0 := by simpa using hd
      rw [E_nil]; split <;> simp [this]
  | cons y l ih =>
    have hc := List.pairwise_cons.1 h
    unfold changeData
    split
    · rename_i e
      have ht := E_tail ho h
      rw [← e] at ht
      split
      · rw [E_cons, E_cons, ← e]
        by_cases eu : v = u
        · subst eu; simp [ht]
        · simp [eu, Ne.symm eu]
      · rename_i hd
        have hd : d = 0 := by simpa using hd
        rw [E_cons, ← e]
        by_cases eu : v = u
        · subst eu; simp [ht, hd]
        · simp [eu, Ne.symm eu]
    · split
      · rename_i h2
        have h0 := E_below ho h h2
        split
        · rw [E_cons (v, d)]
          by_cases eu : v = u
          · subst eu; simp [h0]
          · simp [eu, Ne.symm eu]
        · rename_i hd
          have hd : d = 0 := by simpa using hd
          by_cases eu : v = u
          · subst eu; simp [h0, hd]
          · simp [Ne.symm eu]
      · rename_i hne hnv
        rw [E_cons, ih hc.2, E_cons]
        by_cases eu : u = v
        · subst eu; simp [Ne.symm hne]
        · simp [eu]

theorem changeVarDeg_valid (ho : VarOrd vc) {m : Mono} (hm : Valid vc m) (v : Var) {d : Int} (hd : 0 ≤ d) : Valid vc (changeVarDeg vc m v d) := by
  refine mkMono_valid (changeData_sorted ho v d _ hm.sorted) fun x hx => ?_
  rcases changeData_keys v d _ x hx with ⟨_, h2, h3⟩ | h
  · omega
  · exact hm.pos x h

theorem expo_changeVarDeg (ho : VarOrd vc) {m : Mono} (hm : Valid vc m) (v : Var) {d : Int} (hd : 0 ≤ d) (u : Var) :
    expo (changeVarDeg vc m v d) u = if u = v then d.toNat else expo m u := by
  have h1 := (changeVarDeg_valid ho hm v hd).expo_eq u
  have h2 : E (changeVarDeg vc m v d).data u = _ := E_changeData ho v d _ hm.sorted u
  have h3 := hm.expo_eq u
  rw [h2] at h1
  split at h1 <;> rename_i h
  · rw [if_pos h]; omega
  · rw [if_neg h]; omega

/-- taking `v^i` out of a monomial -/
theorem expo_change_add (ho : VarOrd vc) {m : Mono} (hm : Valid vc m) (v : Var) {d : ℕ} :
    expo (changeVarDeg vc m v d) = expo (changeVarDeg vc m v 0) + Finsupp.single v d := by
  ext u
  rw [Finsupp.add_apply, expo_changeVarDeg ho hm v (by omega), expo_changeVarDeg ho hm v le_rfl, Finsupp.single_apply]
  by_cases e : u = v
  · simp [e]
  · simp [e, Ne.symm e]

theorem changeVarDeg_self (ho : VarOrd vc) {m : Mono} (hm : Valid vc m) (v : Var) {d : Int} (h : E m.data v = d) : changeVarDeg vc m v d = m := by
  have hd : 0 ≤ d := by rw [← h]; exact E_nonneg hm.pos v
  refine (changeVarDeg_valid ho hm v hd).ext ho hm fun u => ?_
  rw [show (changeVarDeg vc m v d).data = changeData vc v d m.data from rfl, E_changeData ho v d _ hm.sorted u]
  split
  · rename_i e; rw [e, h]
  · rfl

theorem upDeg_eq (ho : VarOrd vc) {v : Var} {m : Mono} (hm : Valid vc m) (ht : TopM vc v m) : upDeg v m = E m.data v := by
  unfold upDeg
  have hs := hm.sorted
  unfold TopM at ht
  generalize m.data = l at hs ht
  cases l with
  | nil => rfl
  | cons x l =>
    dsimp only
    split
    · rename_i hne
      rcases ht x (by simp) with h | h
      · exact absurd h hne
      · rw [E_below ho hs h]
    · rename_i e
      have e : x.1 = v := by simpa using e
      rw [← e, E_mem ho hs (List.mem_cons_self)]

theorem changeUp_zero (ho : VarOrd vc) {v : Var} {m : Mono} (hm : Valid vc m) (ht : TopM vc v m) : changeUp v m 0 = changeVarDeg vc m v 0 := by
  have hu := upDeg_eq ho hm ht
  unfold changeUp
  rw [if_pos rfl]
  by_cases h0 : upDeg v m = 0
  · rw [if_pos h0, changeVarDeg_self ho hm v (by rw [← hu, h0])]
  · rw [if_neg h0]
    unfold changeVarDeg
    unfold upDeg at h0
    cases hd : m.data with
    | nil => simp [hd] at h0
    | cons x l =>
      rw [hd] at h0
      dsimp only at h0
      have e : x.1 = v := by
        by_contra hne
        rw [if_pos hne] at h0
        exact h0 rfl
      simp [changeData, e]

/-- a multiplicative order can be cancelled -/
theorem Mono.MonoOrd.cancel (M : MonoOrd vc mc) {a b c : Mono} (ha : Valid vc a) (hb : Valid vc b) (hc : Valid vc c)
    (h : mc (mul vc a c) (mul vc b c) = true) : mc a b = true := by
  by_cases e : a = b
  · rw [e, M.lawful.irrefl _ (mul_valid M.vo hb hc)] at h; exact absurd h (by simp)
  · rcases M.lawful.total a b ha hb e with h' | h'
    · exact h'
    · have := M.lawful.trans _ _ _ (mul_valid M.vo ha hc) (mul_valid M.vo hb hc) (mul_valid M.vo ha hc) h (M.mono _ _ _ hb ha hc h')
      rw [M.lawful.irrefl _ (mul_valid M.vo ha hc)] at this
      exact absurd this (by simp)

theorem varMono_valid (v : Var) {d : Int} (hd : 0 < d) : Valid vc ⟨[(v, d)], d⟩ :=
  ⟨by simp, by simpa using hd, by simp⟩

theorem E_varMono (v : Var) (d : Int) (u : Var) : E [(v, d)] u = if v = u then d else 0 := by rw [E_cons, E_nil, add_zero]

/-- changing the exponent of `v` from a common value to a common value keeps the order -/
theorem change_mono (M : MonoOrd vc mc) {a b : Mono} (ha : Valid vc a) (hb : Valid vc b) (v : Var) {i d : Int} (hd : 0 ≤ d)
    (ea : E a.data v = i) (eb : E b.data v = i) (h : mc a b = true) : mc (changeVarDeg vc a v d) (changeVarDeg vc b v d) = true := by
  have key : ∀ {x : Mono}, Valid vc x → E x.data v = i → ∀ {k : Int}, 0 < k → 0 ≤ d → d + k = i →
      mul vc (changeVarDeg vc x v d) ⟨[(v, k)], k⟩ = x := by
    intro x hx ex k hk hd e
    refine (mul_valid M.vo (changeVarDeg_valid M.vo hx v hd) (varMono_valid v hk)).ext M.vo hx fun u => ?_
    rw [E_mul]
    simp only []
    rw [show (changeVarDeg vc x v d).data = changeData vc v d x.data from rfl, E_changeData M.vo v d _ hx.sorted u, E_varMono]
    by_cases eu : u = v
    · subst eu; simp; omega
    · simp [eu, Ne.symm eu]
  have key2 : ∀ {x : Mono}, Valid vc x → E x.data v = i → ∀ {k : Int}, 0 < k → i + k = d →
      changeVarDeg vc x v d = mul vc x ⟨[(v, k)], k⟩ := by
    intro x hx ex k hk e
    refine (changeVarDeg_valid M.vo hx v hd).ext M.vo (mul_valid M.vo hx (varMono_valid v hk)) fun u => ?_
    rw [E_mul]
    simp only []
    rw [show (changeVarDeg vc x v d).data = changeData vc v d x.data from rfl, E_changeData M.vo v d _ hx.sorted u, E_varMono]
    by_cases eu : u = v
    · subst eu; simp; omega
    · simp [eu, Ne.symm eu]
  rcases lt_trichotomy d i with h1 | h1 | h1
  · refine M.cancel (changeVarDeg_valid M.vo ha v hd) (changeVarDeg_valid M.vo hb v hd) (varMono_valid v (d := i - d) (by omega)) ?_
    rw [key ha ea (by omega) hd (by omega), key hb eb (by omega) hd (by omega)]
    exact h
  · rw [changeVarDeg_self M.vo ha v (by omega), changeVarDeg_self M.vo hb v (by omega)]; exact h
  · rw [key2 ha ea (k := d - i) (by omega) (by omega), key2 hb eb (k := d - i) (by omega) (by omega)]
    exact M.mono _ _ _ ha hb (varMono_valid v (by omega)) h

/-! ## the terms of one degree -/

section
variable {R : Type*} [CommRing R] {p : PV Mono R}

/-- the terms of degree `i` in `v`, with the exponent of `v` set to `d` -/
def termsAt (vc : Var → Var → Bool) (v : Var) (i d : Int) (p : PV Mono R) : PV Mono R :=
  (p.filter fun t => E t.1.data v = i).map fun t => (changeVarDeg vc t.1 v d, t.2)

theorem PolyOK.sublist {p q : PV Mono R} (hp : PolyOK vc mc p) (h : q.Sublist p) : PolyOK vc mc q :=
  ⟨fun t ht => hp.monos t (h.subset ht), hp.canon.1.sublist h, fun t ht => hp.canon.2 t (h.subset ht)⟩

theorem PolyOK.changeTerms (M : MonoOrd vc mc) (hp : PolyOK vc mc p) (v : Var) {i d : Int} (hd : 0 ≤ d) (h : ∀ t ∈ p, E t.1.data v = i) :
    PolyOK vc mc (p.map fun t => (changeVarDeg vc t.1 v d, t.2)) := by
  refine ⟨?_, ?_, ?_⟩
  · intro t ht; obtain ⟨u, hu, rfl⟩ := List.mem_map.1 ht; exact changeVarDeg_valid M.vo (hp.monos u hu) v hd
  · rw [List.pairwise_map]
    exact hp.canon.1.imp_of_mem fun {a b} ha hb hab => change_mono M (hp.monos a ha) (hp.monos b hb) v hd (h a ha) (h b hb) hab
  · intro t ht; obtain ⟨u, hu, rfl⟩ := List.mem_map.1 ht; exact hp.canon.2 u hu

theorem PolyOK.termsAt (M : MonoOrd vc mc) (hp : PolyOK vc mc p) (v : Var) (i : Int) {d : Int} (hd : 0 ≤ d) : PolyOK vc mc (termsAt vc v i d p) :=
  (hp.sublist List.filter_sublist).changeTerms M v hd fun t ht => by simpa using (List.mem_filter.1 ht).2

theorem isCoeff_termsAt (ho : VarOrd vc) (hp : ∀ t ∈ p, Valid vc t.1) (v : Var) (i : ℕ) : IsCoeff v i (val p) (val (termsAt vc v i 0 p)) := by
  classical
  intro s
  induction p with
  | nil => simp [termsAt, val_nil]
  | cons t p ih =>
    replace ih := ih fun t ht => hp t (List.mem_cons_of_mem _ ht)
    have ht := hp t (by simp)
    unfold termsAt at ih ⊢
    rw [List.filter_cons]
    have hadd := fun h : E t.1.data v = i => by
      have := expo_change_add (d := i) ho ht v
      rw [changeVarDeg_self ho ht v h] at this
      exact this
    have h0 : expo (changeVarDeg vc t.1 v 0) v = 0 := by rw [expo_changeVarDeg ho ht v le_rfl, if_pos rfl]; rfl
    have hv := ht.expo_eq v
    by_cases h : E t.1.data v = i
    · rw [if_pos (by simpa using h), List.map_cons, val_cons, val_cons, coeff_add, coeff_add, ih, coeff_monomial, coeff_monomial]
      dsimp only
      rw [hadd h]
      by_cases hs : s v = 0
      · rw [if_pos hs, if_pos hs]
        congr 1
        simp only [add_left_inj]
      · rw [if_neg hs, if_neg hs, if_neg, add_zero]
        intro e; rw [← e, h0] at hs; exact hs rfl
    · rw [if_neg (by simpa using h), ih, val_cons, coeff_add, coeff_monomial]
      by_cases hs : s v = 0
      · rw [if_pos hs, if_pos hs, if_neg, zero_add]
        intro e
        rw [e, Finsupp.add_apply, hs, Finsupp.single_apply, if_pos rfl, zero_add] at hv
        exact h hv.symm
      · rw [if_neg hs, if_neg hs]

theorem IsCoeff.unique {v : Var} {i : ℕ} {f c c' : MvPolynomial Var R} (h : IsCoeff v i f c) (h' : IsCoeff v i f c') : c = c' := by
  ext s; rw [h s, h' s]

theorem IsCoeff.not_vars {v : Var} {i : ℕ} {f c : MvPolynomial Var R} (h : IsCoeff v i f c) : v ∉ c.vars := by
  rw [mem_vars]
  rintro ⟨s, hs, hv⟩
  have h1 := h s
  rw [if_neg (Finsupp.mem_support_iff.1 hv)] at h1
  exact mem_support_iff.1 hs h1

theorem IsCoeff.degreeOf {v : Var} {i : ℕ} {f c : MvPolynomial Var R} (h : IsCoeff v i f c) : c.degreeOf v = 0 := by
  have h1 := h.not_vars
  rw [degreeOf_eq_sup]
  refine Nat.le_zero.1 (Finset.sup_le fun s hs => ?_)
  by_contra hc
  exact h1 ((mem_vars v).2 ⟨s, hs, Finsupp.mem_support_iff.2 (by omega)⟩)

theorem IsCoeff.degreeOf_le {v w : Var} {i : ℕ} {f c : MvPolynomial Var R} (h : IsCoeff v i f c) : c.degreeOf w ≤ f.degreeOf w := by
  rw [degreeOf_eq_sup]
  refine Finset.sup_le fun s hs => ?_
  have h1 := h s
  have hne := mem_support_iff.1 hs
  by_cases hv : s v = 0
  · rw [if_pos hv] at h1
    have := monomial_le_degreeOf w (mem_support_iff.2 (h1 ▸ hne))
    refine le_trans ?_ this
    rw [Finsupp.add_apply]; exact Nat.le_add_right _ _
  · rw [if_neg hv] at h1; exact absurd h1 hne

theorem IsCoeff.vars_subset {v : Var} {i : ℕ} {f c : MvPolynomial Var R} (h : IsCoeff v i f c) : c.vars ⊆ f.vars := by
  intro w hw
  obtain ⟨s, hs, hsw⟩ := (mem_vars w).1 hw
  have h1 := h s
  have hne := mem_support_iff.1 hs
  by_cases hv : s v = 0
  · rw [if_pos hv] at h1
    refine (mem_vars w).2 ⟨_, mem_support_iff.2 (h1 ▸ hne), ?_⟩
    rw [Finsupp.mem_support_iff] at hsw ⊢
    rw [Finsupp.add_apply]; omega
  · rw [if_neg hv] at h1; exact absurd h1 hne

/-- a polynomial is the sum of its coefficients times the powers of `v` -/
theorem IsCoeff.sum {v : Var} {f : MvPolynomial Var R} {c : ℕ → MvPolynomial Var R} {n : ℕ} (hn : f.degreeOf v < n)
    (h : ∀ i < n, IsCoeff v i f (c i)) : f = ∑ i ∈ Finset.range n, c i * X v ^ i := by
  classical
  ext s
  rw [coeff_sum]
  have hterm : ∀ i ∈ Finset.range n, coeff s (c i * X v ^ i) = if i = s v then coeff s f else 0 := by
    intro i hi
    rw [show (X v ^ i : MvPolynomial Var R) = monomial (Finsupp.single v i) 1 by rw [X_pow_eq_monomial], coeff_mul_monomial', mul_one]
    by_cases hle : Finsupp.single v i ≤ s
    · rw [if_pos hle, h i (Finset.mem_range.1 hi)]
      have h2 : (s - Finsupp.single v i) v = s v - i := by simp
      have h3 : i ≤ s v := by simpa using hle v
      rw [h2, tsub_add_cancel_of_le hle]
      by_cases e : i = s v
      · rw [if_pos (by omega), if_pos e]
      · rw [if_neg (by omega), if_neg e]
    · rw [if_neg hle, if_neg]
      rintro rfl
      exact hle (by rw [Finsupp.single_le_iff])
  rw [Finset.sum_congr rfl hterm, Finset.sum_ite_eq']
  split
  · rfl
  · rename_i hn'
    by_contra hc
    exact hn' (Finset.mem_range.2 (lt_of_le_of_lt (monomial_le_degreeOf v (mem_support_iff.2 hc)) hn))

theorem IsCoeff.lead_ne {v : Var} {f c : MvPolynomial Var R} (hf : f ≠ 0) (h : IsCoeff v (f.degreeOf v) f c) : c ≠ 0 := by
  rintro rfl
  have hne : f.support.Nonempty := by
    by_contra hc
    rw [Finset.not_nonempty_iff_eq_empty, support_eq_empty] at hc
    exact hf hc
  obtain ⟨s, hs, e⟩ := Finset.exists_mem_eq_sup _ hne fun s : Var →₀ ℕ => s v
  rw [← degreeOf_eq_sup] at e
  have h1 := h (s.erase v)
  have h2 : s.erase v + Finsupp.single v (f.degreeOf v) = s := by
    rw [e]; exact Finsupp.erase_add_single v s
  rw [Finsupp.erase_same, if_pos rfl, h2, coeff_zero] at h1
  exact mem_support_iff.1 hs h1.symm

/-! ## degree -/

theorem foldMax_spec {α : Type*} (g : α → Int) : ∀ (l : List α) (d : Int), d ≤ l.foldl (fun d t => if g t > d then g t else d) d ∧
    (∀ t ∈ l, g t ≤ l.foldl (fun d t => if g t > d then g t else d) d) ∧
    (l.foldl (fun d t => if g t > d then g t else d) d = d ∨ ∃ t ∈ l, l.foldl (fun d t => if g t > d then g t else d) d = g t) := by
  intro l
  induction l with
  | nil => intro d; simp
  | cons x l ih =>
    intro d
    rw [List.foldl_cons]
    obtain ⟨h1, h2, h3⟩ := ih (if g x > d then g x else d)
    have hx : d ≤ (if g x > d then g x else d) ∧ g x ≤ (if g x > d then g x else d) ∧ ((if g x > d then g x else d) = d ∨ (if g x > d then g x else d) = g x) := by
      split <;> refine ⟨by omega, by omega, ?_⟩
      · exact .inr rfl
      · exact .inl rfl
    refine ⟨hx.1.trans h1, fun t ht => ?_, ?_⟩
    · rcases List.mem_cons.1 ht with rfl | ht
      · exact hx.2.1.trans h1
      · exact h2 t ht
    · rcases h3 with h3 | ⟨t, ht, e⟩
      · rw [h3]
        rcases hx.2.2 with e | e
        · exact .inl e
        · exact .inr ⟨x, by simp, e⟩
      · exact .inr ⟨t, by simp [ht], e⟩

theorem degreeOf_eq_of (M : MonoOrd vc mc) (hp : PolyOK vc mc p) (v : Var) {d : Int} (h1 : ∀ t ∈ p, E t.1.data v ≤ d)
    (h2 : p = [] ∧ d = 0 ∨ ∃ t ∈ p, E t.1.data v = d) : d = (val p).degreeOf v := by
  by_cases h0 : p = []
  · subst h0
    rcases h2 with ⟨_, h2⟩ | ⟨t, ht, _⟩
    · rw [h2, val_nil, degreeOf_zero]; rfl
    · simp at ht
  · obtain ⟨t, ht, e⟩ := hp.exists_exp M h0 v
    rcases h2 with ⟨h, _⟩ | ⟨u, hu, e'⟩
    · exact absurd h h0
    · have h3 := hp.exp_le M hu v
      have h4 := h1 t ht
      omega

theorem degreeV_spec (M : MonoOrd vc mc) (hp : PolyOK vc mc p) (v : Var) : degreeV p v = (val p).degreeOf v := by
  refine degreeOf_eq_of M hp v ?_ ?_
  · intro t ht
    unfold degreeV
    cases p with
    | nil => simp at ht
    | cons x p =>
      obtain ⟨h1, h2, _⟩ := foldMax_spec (fun t : Mono × R => degIn t.1 v) p (degIn x.1 v)
      rw [← degIn_eq M.vo (hp.monos t ht).sorted]
      rcases List.mem_cons.1 ht with rfl | ht
      · exact h1
      · exact h2 t ht
  · cases p with
    | nil => exact .inl ⟨rfl, rfl⟩
    | cons x p =>
      right
      show ∃ t ∈ x :: p, E t.1.data v = p.foldl (fun d t => if degIn t.1 v > d then degIn t.1 v else d) (degIn x.1 v)
      obtain ⟨_, _, h3⟩ := foldMax_spec (fun t : Mono × R => degIn t.1 v) p (degIn x.1 v)
      rcases h3 with h | ⟨t, ht, h⟩
      · exact ⟨x, by simp, by rw [h, degIn_eq M.vo (hp.monos x (by simp)).sorted]⟩
      · exact ⟨t, by simp [ht], by rw [h, degIn_eq M.vo (hp.monos t (by simp [ht])).sorted]⟩

/-! ## lex orders -/

theorem lexGt_iff (ho : VarOrd vc) {a b : Mono} (ha : Valid vc a) (hb : Valid vc b) : lexGt vc a b = true ↔ LexLt vc (E b.data) (E a.data) :=
  pvComp_iff ho ha.sorted hb.sorted ha.pos hb.pos

/-- with `v` on top, the exponent of `v` does not increase along a lex polynomial -/
theorem lex_top_le (ho : VarOrd vc) {v : Var} {a b : Mono} (ha : Valid vc a) (hb : Valid vc b) (ta : TopM vc v a) (h : lexGt vc a b = true) :
    E b.data v ≤ E a.data v := by
  obtain ⟨u, h1, h2⟩ := (lexGt_iff ho ha hb).1 h
  have hu : 0 < E a.data u := lt_of_le_of_lt (E_nonneg hb.pos u) h1
  obtain ⟨x, hx, e⟩ := exists_of_E hu.ne'
  rcases ta x hx with h' | h'
  · rw [← h', e]; exact h1.le
  · rw [e] at h'; exact (h2 v h').le

theorem lex_top_sorted (ho : VarOrd vc) {v : Var} (hp : PolyOK vc (lexGt vc) p) (ht : Top vc v p) :
    p.Pairwise fun a b => E b.1.data v ≤ E a.1.data v :=
  hp.canon.1.imp_of_mem fun {a b} ha hb hab => lex_top_le ho (hp.monos a ha) (hp.monos b hb) (ht a ha) hab

/-- the first variable of the first monomial of a lex polynomial comes before all other variables -/
theorem lex_first (ho : VarOrd vc) {t : Mono × R} {x : Var × Int} {l : List (Var × Int)} (hp : PolyOK vc (lexGt vc) (t :: p)) (hx : t.1.data = x :: l) :
    Top vc x.1 (t :: p) := by
  have ht := hp.monos t (by simp)
  intro u hu y hy
  by_cases e : y.1 = x.1
  · exact .inl e
  right
  rcases ho.total _ _ trivial trivial e with h | h
  · exfalso
    have h0 : E t.1.data y.1 = 0 := by rw [hx]; exact E_below ho (hx ▸ ht.sorted) h
    have hpos : 0 < E u.1.data y.1 := by rw [E_mem ho (hp.monos u hu).sorted hy]; exact (hp.monos u hu).pos y hy
    rcases List.mem_cons.1 hu with rfl | hu'
    · omega
    · have hgt := (List.pairwise_cons.1 hp.canon.1).1 u hu'
      obtain ⟨w, h1, h2⟩ := (lexGt_iff ho ht (hp.monos u hu)).1 hgt
      have hw : 0 < E t.1.data w := lt_of_le_of_lt (E_nonneg (hp.monos u hu).pos w) h1
      obtain ⟨z, hz, e'⟩ := exists_of_E hw.ne'
      have hyw : vc y.1 w = true := by
        rw [hx] at hz
        rcases List.mem_cons.1 hz with rfl | hz
        · rw [← e']; exact h
        · rw [← e']
          exact ho.trans _ _ _ trivial trivial trivial h ((List.pairwise_cons.1 (hx ▸ ht.sorted)).1 z hz)
      have := h2 y.1 hyw
      omega
  · exact h

theorem lex_const_front (ho : VarOrd vc) {t : Mono × R} (hp : PolyOK vc (lexGt vc) (t :: p)) (hx : t.1.data = []) : p = [] := by
  cases p with
  | nil => rfl
  | cons u p =>
    exfalso
    have hgt := (List.pairwise_cons.1 hp.canon.1).1 u (by simp)
    rw [lexGt_iff ho (hp.monos t (by simp)) (hp.monos u (by simp))] at hgt
    obtain ⟨w, h1, _⟩ := hgt
    rw [hx, E_nil] at h1
    have := E_nonneg (hp.monos u (by simp)).pos w
    omega

/-- the tests `get_first_var(p) == v` and `get_first_deg(p)` on a polynomial with `v` on top -/
theorem top_first (ho : VarOrd vc) {v : Var} (hp : PolyOK vc (lexGt vc) p) (ht : Top vc v p) :
    (if pFirstVar p = v then pFirstDeg p else 0) = (val p).degreeOf v := by
  have M := lex_ord ho
  cases p with
  | nil =>
    rw [val_nil, degreeOf_zero]
    by_cases h : pFirstVar ([] : PV Mono R) = v
    · rw [if_pos h]; rfl
    · rw [if_neg h]; rfl
  | cons t p =>
    have hE : (if pFirstVar (t :: p) = v then pFirstDeg (t :: p) else 0) = E t.1.data v := by
      show (if firstVar t.1 = v then firstDeg t.1 else 0) = _
      have hv := hp.monos t (by simp)
      have htt := ht t (by simp)
      rw [← upDeg_eq ho hv htt]
      unfold firstVar firstDeg upDeg
      cases t.1.data with
      | nil => simp
      | cons x l => dsimp only; by_cases e : x.1 = v <;> simp [e]
    rw [hE]
    refine degreeOf_eq_of M hp v ?_ (.inr ⟨t, by simp, rfl⟩)
    intro u hu
    rcases List.mem_cons.1 hu with rfl | hu
    · exact le_rfl
    · exact (List.pairwise_cons.1 (lex_top_sorted ho hp ht)).1 u hu

theorem degreeLex_spec (ho : VarOrd vc) (hp : PolyOK vc (lexGt vc) p) (v : Var) : degreeLex vc p v = (val p).degreeOf v := by
  have M := lex_ord ho
  unfold degreeLex
  by_cases h0 : p = []
  · rw [if_pos h0, h0, val_nil, degreeOf_zero]; rfl
  rw [if_neg h0]
  have hc : Top vc v p → (if pFirstVar p = v then pFirstDeg p else 0) = (val p).degreeOf v := top_first ho hp
  cases p with
  | nil => exact absurd rfl h0
  | cons t p =>
    have hTop : pFirstVar (t :: p) = v ∨ vc v (pFirstVar (t :: p)) = true → Top vc v (t :: p) := by
      intro h
      cases hd : t.1.data with
      | nil =>
        have := lex_const_front ho hp hd
        subst this
        intro u hu x hx
        rw [List.mem_singleton.1 hu, hd] at hx
        simp at hx
      | cons x l =>
        have h1 := lex_first ho hp hd
        have e : pFirstVar (t :: p) = x.1 := by simp [pFirstVar, firstVar, hd]
        rw [e] at h
        rcases h with h | h
        · rw [← h]; exact h1
        · intro u hu y hy
          rcases h1 u hu y hy with e' | e'
          · exact .inr (e' ▸ h)
          · exact .inr (ho.trans _ _ _ trivial trivial trivial h e')
    split
    · rename_i h
      have := hc (hTop (.inl h))
      rwa [if_pos h] at this
    · split
      · rename_i h h'
        have := hc (hTop (.inr h'))
        rwa [if_neg h] at this
      · exact degreeV_spec M hp v

/-! ## coefficients -/

/-- a weakly decreasing list: the initial segment with the first value is the set of entries with that value -/
theorem takeWhile_top {α : Type*} (g : α → Int) (b : α → Bool) (m : Int) : ∀ (l : List α), l.Pairwise (fun a b => g b ≤ g a) → (∀ t ∈ l, g t ≤ m) →
    (∀ t ∈ l, b t = true ↔ g t = m) → l.takeWhile b = l.filter (fun t => g t = m) ∧ ∀ t ∈ l.dropWhile b, g t < m := by
  intro l
  induction l with
  | nil => intro _ _ _; simp
  | cons x l ih =>
    intro h1 h2 h3
    have hc := List.pairwise_cons.1 h1
    by_cases hx : g x = m
    · obtain ⟨i1, i2⟩ := ih hc.2 (fun t ht => h2 t (by simp [ht])) (fun t ht => h3 t (by simp [ht]))
      have hb : b x = true := (h3 x (by simp)).2 hx
      rw [List.takeWhile_cons_of_pos hb, List.dropWhile_cons_of_pos hb, List.filter_cons_of_pos (by simpa using hx), i1]
      exact ⟨rfl, i2⟩
    · have hb : ¬ b x = true := fun h => hx ((h3 x (by simp)).1 h)
      have hlt : g x < m := lt_of_le_of_ne (h2 x (by simp)) hx
      rw [List.takeWhile_cons_of_neg hb, List.dropWhile_cons_of_neg hb]
      refine ⟨(List.filter_eq_nil_iff.2 fun t ht => ?_).symm, fun t ht => ?_⟩
      · rcases List.mem_cons.1 ht with rfl | ht
        · simpa using hx
        · have := hc.1 t ht
          simp; omega
      · rcases List.mem_cons.1 ht with rfl | ht
        · exact hlt
        · have := hc.1 t ht; omega

theorem coeffLoop_spec (v : Var) : ∀ (F : PV Mono R) (m : Int) (tmp : PV Mono R) (co : List (PV Mono R)), 0 ≤ m → m.toNat < co.length →
    (∀ t ∈ F, 0 ≤ upDeg v t.1 ∧ upDeg v t.1 ≤ m) → F.Pairwise (fun a b => upDeg v b.1 ≤ upDeg v a.1) → (∀ i < m.toNat, co.getD i [] = []) →
    (coeffLoop v F m tmp co).length = co.length ∧ ∀ i : ℕ, (coeffLoop v F m tmp co).getD i [] =
      if (i : Int) < m then (F.filter fun t => upDeg v t.1 = i).map fun t => (changeUp v t.1 0, t.2)
      else if (i : Int) = m then tmp ++ (F.filter fun t => upDeg v t.1 = m).map fun t => (changeUp v t.1 0, t.2)
      else co.getD i [] := by
  intro F
  induction F with
  | nil =>
    intro m tmp co h0 hl _ _ hco
    refine ⟨by simp [coeffLoop], fun i => ?_⟩
    simp only [coeffLoop, List.getD_eq_getElem?_getD, List.getElem?_set, List.filter_nil, List.map_nil, List.append_nil]
    by_cases h1 : (i : Int) < m
    · rw [if_neg (by omega), if_pos h1]
      have := hco i (by omega)
      rwa [List.getD_eq_getElem?_getD] at this
    · by_cases h2 : (i : Int) = m
      · rw [if_pos (by omega), if_neg h1, if_pos h2, if_pos hl]; rfl
      · rw [if_neg (by omega), if_neg h1, if_neg h2]
  | cons t F ih =>
    intro m tmp co h0 hl hb hs hco
    have hc := List.pairwise_cons.1 hs
    unfold coeffLoop
    split
    · rename_i hne
      have hlt : upDeg v t.1 < m := lt_of_le_of_ne (hb t (by simp)).2 hne
      have h0' := (hb t (by simp)).1
      obtain ⟨i1, i2⟩ := ih (upDeg v t.1) [(changeUp v t.1 0, t.2)] (co.set m.toNat tmp) h0' (by rw [List.length_set]; omega)
        (fun u hu => ⟨(hb u (by simp [hu])).1, hc.1 u hu⟩) hc.2 (by
          intro i hi
          rw [List.getD_eq_getElem?_getD, List.getElem?_set, if_neg (by omega)]
          have := hco i (by omega)
          rwa [List.getD_eq_getElem?_getD] at this)
      refine ⟨by rw [i1, List.length_set], fun i => ?_⟩
      rw [i2 i]
      rw [List.filter_cons]
      have hF : ∀ k : Int, upDeg v t.1 < k → F.filter (fun t => upDeg v t.1 = k) = [] := by
        intro k hk
        refine List.filter_eq_nil_iff.2 fun u hu => ?_
        have := hc.1 u hu
        simp; omega
      by_cases h1 : (i : Int) < upDeg v t.1
      · rw [if_pos h1, if_pos (by omega), if_neg (by simp; omega)]
      · by_cases h2 : (i : Int) = upDeg v t.1
        · rw [if_neg h1, if_pos h2, if_pos (by omega), if_pos (by simp; omega), List.map_cons, ← h2]; rfl
        · rw [if_neg h1, if_neg h2, List.filter_cons_of_neg (by simpa using hne), hF m hlt]
          rw [List.getD_eq_getElem?_getD, List.getElem?_set]
          by_cases h3 : (i : Int) < m
          · have h5 : ¬ decide (upDeg v t.1 = (i : Int)) = true := by simp; omega
            rw [if_pos h3, if_neg (show ¬ m.toNat = i by omega), if_neg h5, hF i (by omega)]
            have := hco i (by omega)
            rw [List.getD_eq_getElem?_getD] at this
            rw [this]; rfl
          · rw [if_neg h3]
            by_cases h4 : (i : Int) = m
            · rw [if_pos (show m.toNat = i by omega), if_pos hl, if_pos h4]; simp
            · rw [if_neg (show ¬ m.toNat = i by omega), if_neg h4, List.getD_eq_getElem?_getD]
    · rename_i he
      have he : upDeg v t.1 = m := by simpa using he
      obtain ⟨i1, i2⟩ := ih m (tmp ++ [(changeUp v t.1 0, t.2)]) co h0 hl (fun u hu => hb u (by simp [hu])) hc.2 hco
      refine ⟨i1, fun i => ?_⟩
      rw [i2 i, List.filter_cons, List.filter_cons, if_pos (show decide (upDeg v t.1 = m) = true by simpa using he)]
      by_cases h1 : (i : Int) < m
      · rw [if_pos h1, if_pos h1, if_neg (by simp; omega)]
      · rw [if_neg h1, if_neg h1]
        by_cases h2 : (i : Int) = m
        · rw [if_pos h2, if_pos h2, List.map_cons, List.append_assoc]; rfl
        · rw [if_neg h2, if_neg h2]

/-- the terms with `upDeg = i`, `v` removed, are the `termsAt` -/
theorem upTerms (ho : VarOrd vc) {v : Var} (hp : ∀ t ∈ p, Valid vc t.1) (ht : Top vc v p) (i : Int) :
    ((p.filter fun t => upDeg v t.1 = i).map fun t => (changeUp v t.1 0, t.2)) = termsAt vc v i 0 p := by
  unfold termsAt
  rw [show p.filter (fun t => upDeg v t.1 = i) = p.filter (fun t => E t.1.data v = i) from
    List.filter_congr fun t h => by rw [upDeg_eq ho (hp t h) (ht t h)]]
  refine List.map_congr_left fun t h => ?_
  have h := List.mem_of_mem_filter h
  rw [changeUp_zero ho (hp t h) (ht t h)]

theorem pUpDeg_eq (ho : VarOrd vc) {v : Var} (hp : PolyOK vc (lexGt vc) p) (ht : Top vc v p) : pUpDeg v p = (val p).degreeOf v := by
  rw [← top_first ho hp ht]
  cases p with
  | nil =>
    by_cases h : pFirstVar ([] : PV Mono R) = v
    · rw [if_pos h]; rfl
    · rw [if_neg h]; rfl
  | cons t p =>
    show upDeg v t.1 = if firstVar t.1 = v then firstDeg t.1 else 0
    unfold upDeg firstVar firstDeg
    cases t.1.data with
    | nil => simp
    | cons x l => dsimp only; by_cases e : x.1 = v <;> simp [e]

theorem up_sorted (ho : VarOrd vc) {v : Var} (hp : PolyOK vc (lexGt vc) p) (ht : Top vc v p) :
    p.Pairwise fun a b => upDeg v b.1 ≤ upDeg v a.1 :=
  (lex_top_sorted ho hp ht).imp_of_mem fun {a b} ha hb h => by
    rw [upDeg_eq ho (hp.monos a ha) (ht a ha), upDeg_eq ho (hp.monos b hb) (ht b hb)]; exact h

theorem coeffUp_spec (v : Var) (hp : PolyOK (varUni v) (lexGt (varUni v)) p) :
    (coeffUp v p).length = (val p).degreeOf v + 1 ∧
    ∀ i : ℕ, i ≤ (val p).degreeOf v → (coeffUp v p).getD i [] = termsAt (varUni v) v i 0 p := by
  have ho := varUni_ord v
  have ht := top_uni v p
  have hd := pUpDeg_eq ho hp ht
  have hup : ∀ t ∈ p, 0 ≤ upDeg v t.1 ∧ upDeg v t.1 ≤ pUpDeg v p := by
    intro t h
    rw [upDeg_eq ho (hp.monos t h) (ht t h), hd]
    exact ⟨E_nonneg (hp.monos t h).pos v, hp.exp_le (lex_ord ho) h v⟩
  obtain ⟨h1, h2⟩ := coeffLoop_spec v p (pUpDeg v p) [] (List.replicate (pUpDeg v p + 1).toNat []) (by omega)
    (by rw [List.length_replicate]; omega) hup (up_sorted ho hp ht) (by
      intro i hi
      rw [List.getD_eq_getElem?_getD, List.getElem?_replicate]
      split <;> rfl)
  refine ⟨by unfold coeffUp; rw [h1, List.length_replicate]; omega, fun i hi => ?_⟩
  unfold coeffUp
  rw [h2 i, List.nil_append]
  rw [← upTerms ho hp.monos ht]
  by_cases h3 : (i : Int) < pUpDeg v p
  · rw [if_pos h3]
  · rw [if_neg h3, if_pos (by omega), show pUpDeg v p = i by omega]

theorem IsCoeff.self {v : Var} {f : MvPolynomial Var R} (h : f.degreeOf v = 0) : IsCoeff v 0 f f := by
  intro s
  split
  · rw [Finsupp.single_zero, add_zero]
  · rename_i hs
    by_contra hc
    have := monomial_le_degreeOf v (mem_support_iff.2 hc)
    omega

theorem leadUp_spec (ho : VarOrd vc) {v : Var} (hp : PolyOK vc (lexGt vc) p) (ht : Top vc v p) :
    (leadUp v p).2 = (val p).degreeOf v ∧ PolyOK vc (lexGt vc) (leadUp v p).1 ∧ IsCoeff v ((val p).degreeOf v) (val p) (val (leadUp v p).1) := by
  have hd := pUpDeg_eq ho hp ht
  unfold leadUp
  dsimp only
  split
  · refine ⟨hd, ?_⟩
    have hup : ∀ t ∈ p, upDeg v t.1 ≤ pUpDeg v p := by
      intro t h
      rw [upDeg_eq ho (hp.monos t h) (ht t h), hd]
      exact hp.exp_le (lex_ord ho) h v
    have := (takeWhile_top (fun t : Mono × R => upDeg v t.1) (fun t => decide (upDeg v t.1 = pUpDeg v p)) (pUpDeg v p) p (up_sorted ho hp ht) hup (by simp)).1
    rw [this, upTerms ho hp.monos ht, hd]
    exact ⟨hp.termsAt (lex_ord ho) v _ le_rfl, isCoeff_termsAt ho hp.monos v _⟩
  · rename_i hne
    refine ⟨hd, hp, ?_⟩
    have : (val p).degreeOf v = 0 := by
      by_cases h0 : p = []
      · rw [h0, val_nil, degreeOf_zero]
      · have : ¬ pUpDeg v p ≠ 0 := fun h => hne ⟨h, h0⟩
        omega
    rw [this]
    exact .self this

/-- `leadcoeff(F)` of a lex polynomial that is not a constant: the leading coefficient in its first variable -/
theorem leadLex_spec (ho : VarOrd vc) (hp : PolyOK vc (lexGt vc) p) (hn : isNumber p = false) :
    PolyOK vc (lexGt vc) (leadLex p) ∧ 0 < (val p).degreeOf (pFirstVar p) ∧
      IsCoeff (pFirstVar p) ((val p).degreeOf (pFirstVar p)) (val p) (val (leadLex p)) := by
  cases p with
  | nil => simp [isNumber] at hn
  | cons t p =>
    cases hd : t.1.data with
    | nil =>
      have := lex_const_front ho hp hd
      subst this
      simp [isNumber, hd] at hn
    | cons x l =>
      have ht := lex_first ho hp hd
      have hv : pFirstVar (t :: p) = x.1 := by simp [pFirstVar, firstVar, hd]
      have hdd : pFirstDeg (t :: p) = x.2 := by simp [pFirstDeg, firstDeg, hd]
      have hdeg := top_first ho hp ht
      rw [hv, if_pos rfl, hdd] at hdeg
      have hx : 0 < x.2 := (hp.monos t (by simp)).pos x (by simp [hd])
      unfold leadLex
      rw [hv, hdd]
      have hE : ∀ u ∈ t :: p, (!u.1.data.isEmpty && decide (firstVar u.1 = x.1) && decide (firstDeg u.1 = x.2)) = true ↔ E u.1.data x.1 = x.2 := by
        intro u hu
        rw [← upDeg_eq ho (hp.monos u hu) (ht u hu)]
        unfold upDeg firstVar firstDeg
        cases u.1.data with
        | nil => simp; omega
        | cons y l' => by_cases e : y.1 = x.1 <;> simp [e]; omega
      have h1 := (takeWhile_top (fun u : Mono × R => E u.1.data x.1) _ x.2 (t :: p) (lex_top_sorted ho hp ht)
        (fun u hu => by rw [hdeg]; exact hp.exp_le (lex_ord ho) hu _) hE).1
      rw [h1]
      have h2 : (((t :: p).filter fun u => E u.1.data x.1 = x.2).map fun u => (mkMono u.1.data.tail, u.2)) = termsAt vc x.1 x.2 0 (t :: p) := by
        refine List.map_congr_left fun u hu => ?_
        obtain ⟨hu, he⟩ := List.mem_filter.1 hu
        have he : E u.1.data x.1 = x.2 := by simpa using he
        rw [← upDeg_eq ho (hp.monos u hu) (ht u hu)] at he
        have e1 := changeUp_zero ho (hp.monos u hu) (ht u hu)
        unfold changeUp at e1
        rw [if_pos rfl, if_neg (by omega)] at e1
        rw [e1]
      rw [h2, hdeg]
      exact ⟨hp.termsAt (lex_ord ho) _ _ le_rfl, by omega, isCoeff_termsAt ho hp.monos _ _⟩

end

section
variable {R : Type*} [CommRing R] [DecidableEq R] {p : PV Mono R}

theorem coeffIn_spec (M : MonoOrd vc mc) (hp : PolyOK vc mc p) (v : Var) :
    (coeffIn vc mc p v).length = (val p).degreeOf v + 1 ∧ ∀ i : ℕ, i ≤ (val p).degreeOf v →
      PolyOK vc mc ((coeffIn vc mc p v).getD i []) ∧ IsCoeff v i (val p) (val ((coeffIn vc mc p v).getD i [])) := by
  have ho := varUni_ord v
  obtain ⟨h1, h2⟩ := polyConvert_spec M (lex_ord ho) hp (id : R → R) rfl
  have hv : val (polyConvert (varUni v) (lexGt (varUni v)) id p) = val p := by ext s; rw [h2]; rfl
  obtain ⟨c1, c2⟩ := coeffUp_spec v h1
  rw [hv] at c1 c2
  unfold coeffIn
  refine ⟨by rw [List.length_map, c1], fun i hi => ?_⟩
  have hg : ((coeffUp v (polyConvert (varUni v) (lexGt (varUni v)) id p)).map (polyConvert vc mc id)).getD i [] =
      polyConvert vc mc id ((coeffUp v (polyConvert (varUni v) (lexGt (varUni v)) id p)).getD i []) := by
    rw [List.getD_eq_getElem _ _ (by rw [List.length_map, c1]; omega), List.getElem_map, List.getD_eq_getElem _ _ (by rw [c1]; omega)]
  rw [hg, c2 i hi]
  have ok := h1.termsAt (lex_ord ho) v i le_rfl
  obtain ⟨g1, g2⟩ := polyConvert_spec (lex_ord ho) M ok (id : R → R) rfl
  refine ⟨g1, ?_⟩
  have : val (polyConvert vc mc id (termsAt (varUni v) v i 0 (polyConvert (varUni v) (lexGt (varUni v)) id p))) = val (termsAt (varUni v) v i 0 (polyConvert (varUni v) (lexGt (varUni v)) id p)) := by
    ext s; rw [g2]; rfl
  rw [this, ← hv]
  exact isCoeff_termsAt ho h1.monos v i

theorem leadIn_spec (M : MonoOrd vc mc) (hp : PolyOK vc mc p) (v : Var) :
    (leadIn vc mc p v).2 = (val p).degreeOf v ∧ PolyOK vc mc (leadIn vc mc p v).1 ∧
      IsCoeff v ((val p).degreeOf v) (val p) (val (leadIn vc mc p v).1) := by
  have hdeg : p.foldl (fun d t => if degIn t.1 v > d then degIn t.1 v else d) 0 = (val p).degreeOf v := by
    obtain ⟨h1, h2, h3⟩ := foldMax_spec (fun t : Mono × R => degIn t.1 v) p 0
    refine degreeOf_eq_of M hp v (fun t ht => by rw [← degIn_eq M.vo (hp.monos t ht).sorted]; exact h2 t ht) ?_
    rcases h3 with h | ⟨t, ht, h⟩
    · cases p with
      | nil => exact .inl ⟨rfl, h⟩
      | cons t p =>
        right
        refine ⟨t, by simp, ?_⟩
        rw [h]
        have h4 := h2 t (by simp)
        have h5 := E_nonneg (hp.monos t (by simp)).pos v
        rw [degIn_eq M.vo (hp.monos t (by simp)).sorted, h] at h4
        omega
    · exact .inr ⟨t, ht, by rw [h, degIn_eq M.vo (hp.monos t ht).sorted]⟩
  unfold leadIn
  dsimp only
  rw [hdeg]
  split
  · rename_i hne
    refine ⟨rfl, ?_⟩
    have h1 : ((p.filter fun t => t.1.data.any (fun x => x.1 = v) && decide (degIn t.1 v = (val p).degreeOf v)).map
        fun t => (changeVarDeg vc t.1 v 0, t.2)) = termsAt vc v ((val p).degreeOf v) 0 p := by
      unfold termsAt
      congr 1
      refine List.filter_congr fun t ht => ?_
      have hE := degIn_eq M.vo (hp.monos t ht).sorted v
      rw [hE]
      by_cases e : E t.1.data v = (val p).degreeOf v
      · obtain ⟨x, hx, ex⟩ := exists_of_E (d := t.1.data) (v := v) (by omega)
        have : (t.1.data.any fun x => decide (x.1 = v)) = true := List.any_eq_true.2 ⟨x, hx, by simpa using ex⟩
        simp [e, this]
      · simp [e]
    rw [h1, polyNormalize_id M (hp.termsAt M v _ le_rfl)]
    exact ⟨hp.termsAt M v _ le_rfl, isCoeff_termsAt M.vo hp.monos v _⟩
  · rename_i hne
    refine ⟨rfl, hp, ?_⟩
    have h0 : (val p).degreeOf v = 0 := by
      have : ¬ ((val p).degreeOf v : Int) ≠ 0 := hne
      omega
    rw [h0]; exact .self h0

end
end CLPoly
