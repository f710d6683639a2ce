import Verif.Poly.FnSpec
import Mathlib.Algebra.MvPolynomial.Eval
import Mathlib.Algebra.MvPolynomial.PDeriv

/-! # Reduction modulo a prime, substitution, derivatives -/

namespace CLPoly
open Mono MvPolynomial
variable {vc : Var → Var → Bool} {mc : Mono → Mono → Bool}

/-! ## reduction modulo n -/

theorem polyMod_keys {n : ℕ} {p : PV Mono ℤ} {t : Mono × ZMod n} (h : t ∈ polyMod n p) : ∃ u ∈ p, t.1 = u.1 ∧ t.2 = (u.2 : ZMod n) ∧ t.2 ≠ 0 := by
  obtain ⟨u, hu, e⟩ := List.mem_filterMap.1 h
  split at e
  · rename_i h0
    simp only [Option.some.injEq] at e
    subst e
    exact ⟨u, hu, rfl, rfl, h0⟩
  · simp at e

theorem polyMod_spec {n : ℕ} {p : PV Mono ℤ} (hp : PolyOK vc mc p) :
    PolyOK vc mc (polyMod n p) ∧ val (polyMod n p) = map (Int.castRingHom (ZMod n)) (val p) := by
  refine ⟨⟨?_, ?_, ?_⟩, ?_⟩
  · intro t ht
    obtain ⟨u, hu, e, -⟩ := polyMod_keys ht
    rw [e]; exact hp.monos u hu
  · refine List.Pairwise.filterMap _ (fun a b hab x hx y hy => ?_) hp.canon.1
    split at hx <;> [skip; (simp at hx; done)]
    split at hy <;> [skip; (simp at hy; done)]
    simp only [Option.mem_def, Option.some.injEq] at hx hy
    subst hx hy; exact hab
  · intro t ht
    obtain ⟨u, hu, -, -, e⟩ := polyMod_keys ht
    exact e
  · clear hp
    induction p with
    | nil => simp [polyMod, val_nil]
    | cons t p ih =>
      rw [val_cons, map_add, map_monomial, ← ih]
      unfold polyMod
      rw [List.filterMap_cons]
      by_cases h0 : (t.2 : ZMod n) = 0
      · simp [h0]
      · simp only [ne_eq, h0, not_false_eq_true, if_true]
        rw [val_cons]; rfl

/-! ## derivatives -/

section deriv
variable {R : Type*} [CommRing R] {p : PV Mono R}

theorem derivExp_eq (ho : VarOrd vc) {m : Mono} (hm : Valid vc m) (x : Var) : derivExp x m = E m.data x := by
  unfold derivExp
  have hs := hm.sorted
  have key : ∀ (d : List (Var × Int)) (b : Int), SortedV vc d → d.foldl (fun b j => if j.1 = x then j.2 else b) b = if (∃ j ∈ d, j.1 = x) then E d x else b := by
    intro d
    induction d with
    | nil => intro b _; simp
    | cons j d ih =>
      intro b h
      have h' := List.pairwise_cons.1 h
      rw [List.foldl_cons, ih _ h'.2, E_cons]
      by_cases e : j.1 = x
      · have h0 : ¬ ∃ i ∈ d, i.1 = x := by
          rintro ⟨i, hi, ei⟩
          have := h'.1 i hi
          rw [e, ei, ho.irrefl _ trivial] at this; simp at this
        have h1 : E d x = 0 := E_not_mem fun i hi ei => h0 ⟨i, hi, ei⟩
        rw [if_neg h0, if_pos e, if_pos ⟨j, by simp, e⟩, if_pos e, h1, add_zero]
      · have : (∃ i ∈ j :: d, i.1 = x) ↔ ∃ i ∈ d, i.1 = x := by simp [e]
        simp only [this]
        rw [if_neg e, if_neg e, zero_add]
  rw [key _ _ hs]
  split
  · rfl
  · rename_i h
    rw [E_not_mem fun i hi ei => h ⟨i, hi, ei⟩]

theorem derivMono_eq (ho : VarOrd vc) {m : Mono} (hm : Valid vc m) {x : Var} (h : 0 < E m.data x) : derivMono x m = changeVarDeg vc m x (E m.data x - 1) := by
  have hs := hm.sorted
  have hE : ∀ d : List (Var × Int), SortedV vc d → (∀ j ∈ d, E m.data j.1 = j.2) → ∀ u,
      E (d.filterMap fun j => if j.1 = x then (if j.2 - 1 ≠ 0 then some (x, j.2 - 1) else none) else some j) u =
        if u = x ∧ (∃ j ∈ d, j.1 = x) then E d u - 1 else E d u := by
    intro d
    induction d with
    | nil => intro _ _ u; simp
    | cons j d ih =>
      intro hd hv u
      have h' := List.pairwise_cons.1 hd
      have ih := ih h'.2 (fun i hi => hv i (by simp [hi])) u
      rw [List.filterMap_cons]
      by_cases e : j.1 = x
      · have h0 : ¬ ∃ i ∈ d, i.1 = x := by
          rintro ⟨i, hi, ei⟩
          have := h'.1 i hi
          rw [e, ei, ho.irrefl _ trivial] at this; simp at this
        rw [if_neg (fun h => h0 h.2)] at ih
        rw [if_pos e, E_cons, e]
        by_cases e1 : j.2 - 1 = 0
        · rw [if_neg (by simpa using e1)]
          dsimp only
          rw [ih]
          by_cases eu : u = x
          · rw [if_pos ⟨eu, j, by simp, e⟩, if_pos eu.symm]; omega
          · rw [if_neg (fun h => eu h.1), if_neg (Ne.symm eu), zero_add]
        · rw [if_pos e1]
          dsimp only
          rw [E_cons, ih]
          by_cases eu : u = x
          · have hc : u = x ∧ ∃ i ∈ j :: d, i.1 = x := ⟨eu, j, by simp, e⟩
            rw [if_pos hc]; simp only [eu, if_true]; ring
          · have hc : ¬ (u = x ∧ ∃ i ∈ j :: d, i.1 = x) := fun h => eu h.1
            rw [if_neg hc]; simp [Ne.symm eu]
      · rw [if_neg e]
        dsimp only
        have : (u = x ∧ ∃ i ∈ j :: d, i.1 = x) ↔ (u = x ∧ ∃ i ∈ d, i.1 = x) := by simp [e]
        simp only [this]
        rw [E_cons, ih, E_cons]
        by_cases hc : u = x ∧ ∃ i ∈ d, i.1 = x
        · rw [if_pos hc, if_pos hc]; ring
        · rw [if_neg hc, if_neg hc]
  obtain ⟨j0, hj0, ej0⟩ := exists_of_E h.ne'
  refine Valid.ext ho (mkMono_valid ?_ ?_) (changeVarDeg_valid ho hm x (by omega)) fun u => ?_
  · refine List.Pairwise.filterMap _ (fun a b hab y hy z hz => ?_) hs
    have ey : y.1 = a.1 := by
      by_cases e : a.1 = x
      · rw [if_pos e] at hy
        split at hy
        · simp only [Option.mem_def, Option.some.injEq] at hy; rw [← hy, e]
        · simp at hy
      · rw [if_neg e] at hy; simp only [Option.mem_def, Option.some.injEq] at hy; rw [hy]
    have ez : z.1 = b.1 := by
      by_cases e : b.1 = x
      · rw [if_pos e] at hz
        split at hz
        · simp only [Option.mem_def, Option.some.injEq] at hz; rw [← hz, e]
        · simp at hz
      · rw [if_neg e] at hz; simp only [Option.mem_def, Option.some.injEq] at hz; rw [hz]
    rw [ey, ez]; exact hab
  · intro y hy
    obtain ⟨a, ha, e⟩ := List.mem_filterMap.1 hy
    have hpos := hm.pos a ha
    by_cases e' : a.1 = x
    · rw [if_pos e'] at e
      split at e
      · rename_i h0
        simp only [Option.some.injEq] at e; rw [← e]; dsimp only; omega
      · simp at e
    · rw [if_neg e'] at e; simp only [Option.some.injEq] at e; rw [← e]; exact hpos
  · show E (m.data.filterMap _) u = E (changeData vc x _ m.data) u
    rw [hE _ hs (fun j hj => E_mem ho hs hj) u, E_changeData ho x _ _ hs]
    by_cases eu : u = x
    · rw [if_pos ⟨eu, j0, hj0, ej0⟩, if_pos eu, eu]
    · rw [if_neg (fun h => eu h.1), if_neg eu]

theorem derivMono_lt (M : MonoOrd vc mc) {a b : Mono} (ha : Valid vc a) (hb : Valid vc b) {x : Var} (ea : 0 < E a.data x) (eb : 0 < E b.data x)
    (h : mc a b = true) : mc (derivMono x a) (derivMono x b) = true := by
  have key : ∀ {m : Mono}, Valid vc m → 0 < E m.data x → Valid vc (derivMono x m) ∧ mul vc (derivMono x m) ⟨[(x, 1)], 1⟩ = m := by
    intro m hm em
    rw [derivMono_eq M.vo hm em]
    have hv := changeVarDeg_valid M.vo hm x (d := E m.data x - 1) (by omega)
    refine ⟨hv, (mul_valid M.vo hv (varMono_valid x one_pos)).ext M.vo hm fun u => ?_⟩
    rw [E_mul]
    simp only []
    rw [show (changeVarDeg vc m x (E m.data x - 1)).data = changeData vc x _ m.data from rfl, E_changeData M.vo x _ _ hm.sorted u, E_varMono]
    by_cases e : u = x
    · rw [if_pos e, if_pos e.symm, e]; ring
    · rw [if_neg e, if_neg (Ne.symm e), add_zero]
  obtain ⟨va, ma⟩ := key ha ea
  obtain ⟨vb, mb⟩ := key hb eb
  refine M.cancel va vb (varMono_valid x one_pos) ?_
  rw [ma, mb]; exact h

theorem derivative_keys (ho : VarOrd vc) (hp : ∀ t ∈ p, Valid vc t.1) {x : Var} {t : Mono × R} (h : t ∈ derivative x p) :
    ∃ u ∈ p, 0 < E u.1.data x ∧ t = (derivMono x u.1, (E u.1.data x : R) * u.2) := by
  obtain ⟨u, hu, e⟩ := List.mem_filterMap.1 h
  rw [derivExp_eq ho (hp u hu)] at e
  have := E_nonneg (hp u hu).pos x
  split at e
  · rename_i h0
    simp only [Option.some.injEq] at e
    exact ⟨u, hu, by omega, e.symm⟩
  · simp at e

theorem derivative_sorted (M : MonoOrd vc mc) (hp : PolySorted vc mc p) (x : Var) : PolySorted vc mc (derivative x p) := by
  refine ⟨?_, ?_⟩
  · intro t ht
    obtain ⟨u, hu, h0, rfl⟩ := derivative_keys M.vo hp.monos ht
    dsimp only
    rw [derivMono_eq M.vo (hp.monos u hu) h0]
    exact changeVarDeg_valid M.vo (hp.monos u hu) x (by omega)
  · have h : p.Pairwise fun a b => Valid vc a.1 ∧ Valid vc b.1 ∧ mc a.1 b.1 = true :=
      hp.sorted.imp_of_mem fun {a b} ha hb hab => ⟨hp.monos a ha, hp.monos b hb, hab⟩
    refine List.Pairwise.filterMap _ (fun a b hab y hy z hz => ?_) h
    obtain ⟨va, vb, hab⟩ := hab
    rw [derivExp_eq M.vo va] at hy
    rw [derivExp_eq M.vo vb] at hz
    have na := E_nonneg va.pos x
    have nb := E_nonneg vb.pos x
    split at hy <;> [skip; (simp at hy; done)]
    split at hz <;> [skip; (simp at hz; done)]
    simp only [Option.mem_def, Option.some.injEq] at hy hz
    subst hy hz
    exact derivMono_lt M va vb (by omega) (by omega) hab

theorem val_derivative (ho : VarOrd vc) (hp : ∀ t ∈ p, Valid vc t.1) (x : Var) : val (derivative x p) = pderiv x (val p) := by
  induction p with
  | nil => simp [derivative, val_nil]
  | cons t p ih =>
    replace ih := ih fun t ht => hp t (List.mem_cons_of_mem _ ht)
    have ht := hp t (by simp)
    rw [val_cons, map_add, ← ih, pderiv_monomial]
    unfold derivative
    rw [List.filterMap_cons, derivExp_eq ho ht]
    have hE := ht.expo_eq x
    have hn := E_nonneg ht.pos x
    by_cases h0 : E t.1.data x = 0
    · have : expo t.1 x = 0 := by omega
      rw [if_neg (by simpa using h0), this]; simp
    · rw [if_pos h0]
      dsimp only
      rw [val_cons]
      congr 1
      rw [derivMono_eq ho ht (by omega)]
      have e1 : expo (changeVarDeg vc t.1 x (E t.1.data x - 1)) = expo t.1 - Finsupp.single x 1 := by
        ext u
        rw [expo_changeVarDeg ho ht x (by omega), Finsupp.tsub_apply, Finsupp.single_apply]
        by_cases e : u = x
        · rw [if_pos e, if_pos e.symm, e]; omega
        · rw [if_neg e, if_neg (Ne.symm e)]; rfl
      rw [e1, ← hE]
      congr 1
      push_cast; ring

theorem derivative_ok [CharZero R] [NoZeroDivisors R] (M : MonoOrd vc mc) (hp : PolyOK vc mc p) (x : Var) : PolyOK vc mc (derivative x p) := by
  refine (derivative_sorted M ⟨hp.monos, hp.canon.1⟩ x).polyOK fun t ht => ?_
  obtain ⟨u, hu, h0, rfl⟩ := derivative_keys M.vo hp.monos ht
  exact mul_ne_zero (by exact_mod_cast h0.ne') (hp.canon.2 u hu)

theorem derivLex_eq (ho : VarOrd vc) (hp : PolyOK vc (lexGt vc) p) : derivLex p = derivative (pFirstVar p) p := by
  unfold derivLex derivative
  cases p with
  | nil => rfl
  | cons t0 p0 =>
    refine List.filterMap_congr fun t ht => ?_
    have hv := hp.monos t ht
    rw [derivExp_eq ho hv]
    cases hd0 : t0.1.data with
    | nil =>
      have hnil := lex_const_front ho hp hd0
      subst hnil
      rw [List.mem_singleton] at ht
      subst ht
      unfold derivLexTerm
      rw [hd0]; rfl
    | cons x0 l0 =>
      have hx : pFirstVar (t0 :: p0) = x0.1 := by show firstVar t0.1 = _; unfold firstVar; rw [hd0]
      have htop := lex_first ho hp hd0 t ht
      rw [hx]
      unfold derivLexTerm
      cases hd : t.1.data with
      | nil => rfl
      | cons j rest =>
        dsimp only
        have hs : SortedV vc (j :: rest) := hd ▸ hv.sorted
        have hs' := List.pairwise_cons.1 hs
        have hne : ∀ i ∈ rest, i.1 ≠ x0.1 := by
          intro i hi e
          have h1 := hs'.1 i hi
          rw [e] at h1
          rcases htop j (by rw [hd]; simp) with h2 | h2
          · rw [h2, ho.irrefl _ trivial] at h1; simp at h1
          · have := ho.trans _ _ _ trivial trivial trivial h1 h2
            rw [ho.irrefl _ trivial] at this; simp at this
        rw [E_cons, E_not_mem hne, add_zero]
        have hpos := hv.pos j (by rw [hd]; simp)
        by_cases e : x0.1 = j.1
        · have hj : j.2 ≠ 0 := by omega
          rw [if_pos e, if_pos e.symm, if_pos hj]
          unfold derivMono
          rw [hd, List.filterMap_cons, if_pos e.symm]
          have hrest : (rest.filterMap fun j => if j.1 = x0.1 then (if j.2 - 1 ≠ 0 then some (x0.1, j.2 - 1) else none) else some j) = rest := by
            conv_rhs => rw [← List.filterMap_some (l := rest)]
            exact List.filterMap_congr fun i hi => by rw [if_neg (hne i hi)]
          by_cases e1 : j.2 - 1 = 0
          · rw [if_neg (not_not.2 e1), if_neg (not_not.2 e1)]
            dsimp only; rw [hrest]
          · rw [if_pos e1, if_pos e1]
            dsimp only; rw [hrest]
        · rw [if_neg e, if_neg (Ne.symm e)]; simp

end deriv

/-! ## substitution -/

section assign
variable {R₂ R : Type*} [CommRing R₂] [CommRing R] [DecidableEq R]

/-- the substitution a partial assignment stands for -/
noncomputable def substOf (s : Var → Option R) (v : Var) : MvPolynomial Var R := match s v with | some a => C a | none => X v

omit [DecidableEq R] in
theorem val_assignTerm (f : R₂ →+* R) (s : Var → Option R) (t : Mono × R₂) :
    monomial (expo (assignTerm f s t).1) (assignTerm f s t).2 = eval₂ (C.comp f) (substOf s) (monomial (expo t.1) t.2) := by
  classical
  rw [eval₂_monomial]
  have h1 : ∀ d : List (Var × Int), ((d.map fun x => Finsupp.single x.1 x.2.toNat).sum : Var →₀ ℕ).prod (fun n e => substOf s n ^ e) =
      (d.map fun x => substOf s x.1 ^ x.2.toNat).prod := by
    intro d
    induction d with
    | nil => simp
    | cons x d ih =>
      rw [List.map_cons, List.sum_cons, Finsupp.prod_add_index' (by simp) (by intro a b₁ b₂; rw [pow_add]), ih, List.map_cons, List.prod_cons,
        Finsupp.prod_single_index (by simp)]
  have h2 : ∀ (d : List (Var × Int)) (z : R),
      monomial (((d.filter fun j => (s j.1).isNone).map fun x => Finsupp.single x.1 x.2.toNat).sum : Var →₀ ℕ)
        (d.foldl (fun z j => match s j.1 with | some a => z * a ^ j.2.toNat | none => z) z) =
      C z * (d.map fun x => substOf s x.1 ^ x.2.toNat).prod := by
    intro d
    induction d with
    | nil => intro z; simp
    | cons x d ih =>
      intro z
      rw [List.foldl_cons, List.map_cons, List.prod_cons]
      cases hs : s x.1 with
      | none =>
        rw [List.filter_cons_of_pos (by simp [hs]), List.map_cons, List.sum_cons]
        have e : substOf s x.1 = X x.1 := by unfold substOf; rw [hs]
        rw [e, mul_left_comm, ← ih, X_pow_eq_monomial, monomial_mul, one_mul]
      | some a =>
        rw [List.filter_cons_of_neg (by simp [hs])]
        have e : substOf s x.1 = C a := by unfold substOf; rw [hs]
        rw [e, ih, map_mul, map_pow, mul_assoc]
  unfold assignTerm
  exact (h2 _ _).trans (by rw [RingHom.comp_apply]; unfold expo; rw [h1])

theorem val_snoc (out : PV Mono R) (cur : Mono × R) : val (if cur.2 ≠ 0 then out ++ [cur] else out) = val out + monomial (expo cur.1) cur.2 := by
  by_cases h : cur.2 = 0
  · rw [if_neg (not_not.2 h), h, monomial_zero, add_zero]
  · rw [if_pos h, val_append, val_cons, val_nil, add_zero]

theorem val_assignLoop (f : R₂ →+* R) (s : Var → Option R) (p : PV Mono R₂) : ∀ (cur : Mono × R) (out : PV Mono R),
    val (assignLoop f s p cur out) = val out + monomial (expo cur.1) cur.2 + eval₂ (C.comp f) (substOf s) (val p) := by
  induction p with
  | nil => intro cur out; rw [val_nil, eval₂_zero, add_zero]; exact val_snoc out cur
  | cons t p ih =>
    intro cur out
    unfold assignLoop
    dsimp only
    rw [val_cons, eval₂_add, ← val_assignTerm]
    by_cases h : (!Mono.beq (assignTerm f s t).1 cur.1) = true
    · rw [if_pos h, ih, val_snoc, add_assoc]
    · rw [if_neg h, ih]
      have e : (assignTerm f s t).1 = cur.1 := by rw [← beq_iff]; simpa using h
      rw [e, map_add]; ring

omit [DecidableEq R] [CommRing R₂] in
theorem assignTerm_nonneg {f : R₂ → R} {s : Var → Option R} {t : Mono × R₂} (h : ∀ x ∈ t.1.data, 0 ≤ x.2) : ∀ x ∈ (assignTerm f s t).1.data, 0 ≤ x.2 :=
  fun x hx => h x (List.mem_filter.1 hx).1

omit [CommRing R₂] in
theorem assignLoop_nonneg (f : R₂ → R) (s : Var → Option R) (p : PV Mono R₂) (hp : ∀ t ∈ p, ∀ x ∈ t.1.data, 0 ≤ x.2) :
    ∀ (cur : Mono × R) (out : PV Mono R), (∀ x ∈ cur.1.data, 0 ≤ x.2) → (∀ t ∈ out, ∀ x ∈ t.1.data, 0 ≤ x.2) →
    ∀ t ∈ assignLoop f s p cur out, ∀ x ∈ t.1.data, 0 ≤ x.2 := by
  have snoc : ∀ (cur : Mono × R) (out : PV Mono R), (∀ x ∈ cur.1.data, 0 ≤ x.2) → (∀ t ∈ out, ∀ x ∈ t.1.data, 0 ≤ x.2) →
      ∀ t ∈ (if cur.2 ≠ 0 then out ++ [cur] else out), ∀ x ∈ t.1.data, 0 ≤ x.2 := by
    intro cur out h1 h2 t ht
    split at ht
    · rcases List.mem_append.1 ht with ht | ht
      · exact h2 t ht
      · rw [List.mem_singleton] at ht; rw [ht]; exact h1
    · exact h2 t ht
  induction p with
  | nil => intro cur out h1 h2; exact snoc cur out h1 h2
  | cons t p ih =>
    intro cur out h1 h2
    have ih := ih fun t ht => hp t (List.mem_cons_of_mem _ ht)
    have ht := assignTerm_nonneg (f := f) (s := s) (hp t (by simp))
    unfold assignLoop
    dsimp only
    split
    · exact ih _ _ ht (snoc cur out h1 h2)
    · exact ih _ _ h1 h2

/-- substitution: value, and the shape of the result -/
theorem assign_spec (M : MonoOrd vc mc) (f : R₂ →+* R) (s : Var → Option R) {p : PV Mono R₂} (hp : ∀ t ∈ p, ∀ x ∈ t.1.data, 0 ≤ x.2) :
    PolySorted vc mc (assign vc mc f s p) ∧ val (assign vc mc f s p) = eval₂ (C.comp f) (substOf s) (val p) := by
  cases p with
  | nil => exact ⟨⟨by simp [assign], by simp [assign]⟩, by rw [val_nil, eval₂_zero]; rfl⟩
  | cons t p =>
    obtain ⟨h1, h2, -⟩ := polyNormalize_spec M (assignLoop_nonneg f s p (fun t ht => hp t (List.mem_cons_of_mem _ ht)) (assignTerm f s t) []
      (assignTerm_nonneg (hp t (by simp))) (by simp))
    refine ⟨h1, h2.trans ?_⟩
    rw [val_assignLoop, val_nil, zero_add, val_assignTerm, val_cons, eval₂_add]

/-! ### when equal monomials stay adjacent -/

theorem E_filter_kept (s : Var → Option R) (d : List (Var × Int)) (u : Var) :
    E (d.filter fun j => (s j.1).isNone) u = if (s u).isNone then E d u else 0 := by
  induction d with
  | nil => simp [E_nil]
  | cons x d ih =>
    by_cases hx : (s x.1).isNone = true
    · rw [List.filter_cons_of_pos (by simpa using hx), E_cons, ih, E_cons]
      by_cases e : x.1 = u
      · rw [if_pos e, ← e, if_pos hx, if_pos hx]
      · rw [if_neg e]; simp
    · rw [List.filter_cons_of_neg (by simpa using hx), ih, E_cons]
      by_cases e : x.1 = u
      · rw [← e, if_neg hx, if_neg hx]
      · rw [if_neg e, zero_add]

theorem assignTerm_valid (f : R₂ → R) (s : Var → Option R) {t : Mono × R₂} (h : Valid vc t.1) : Valid vc (assignTerm f s t).1 :=
  mkMono_valid (h.sorted.sublist List.filter_sublist) fun x hx => h.pos x (List.mem_filter.1 hx).1

theorem assignTerm_weak (ho : VarOrd vc) (f : R₂ → R) {s : Var → Option R} (hs : ∀ u w, s u = none → (s w).isSome = true → vc u w = true)
    {a b : Mono × R₂} (ha : Valid vc a.1) (hb : Valid vc b.1) (h : lexGt vc a.1 b.1 = true) :
    (assignTerm f s a).1 = (assignTerm f s b).1 ∨ lexGt vc (assignTerm f s a).1 (assignTerm f s b).1 = true := by
  have va := assignTerm_valid f s ha
  have vb := assignTerm_valid f s hb
  have ea : ∀ u, E (assignTerm f s a).1.data u = if (s u).isNone then E a.1.data u else 0 := E_filter_kept s _
  have eb : ∀ u, E (assignTerm f s b).1.data u = if (s u).isNone then E b.1.data u else 0 := E_filter_kept s _
  obtain ⟨u, h1, h2⟩ := (lexGt_iff ho ha hb).1 h
  cases hu : s u with
  | none =>
    right
    rw [lexGt_iff ho va vb]
    refine ⟨u, by rw [ea, eb, hu]; exact h1, fun w hw => ?_⟩
    rw [ea, eb, h2 w hw]
  | some c =>
    left
    refine va.ext ho vb fun w => ?_
    rw [ea, eb]
    cases hw : s w with
    | none => rw [h2 w (hs w u hw (by rw [hu]; rfl))]
    | some c => rfl

theorem assignLoop_ok (M : MonoOrd vc mc) (f : R₂ → R) (s : Var → Option R) (p : PV Mono R₂) (hv : ∀ t ∈ p, Valid vc t.1)
    (hw : p.Pairwise fun a b => (assignTerm f s a).1 = (assignTerm f s b).1 ∨ mc (assignTerm f s a).1 (assignTerm f s b).1 = true) :
    ∀ (cur : Mono × R) (out : PV Mono R), PolyOK vc mc out → Valid vc cur.1 → (∀ t ∈ out, mc t.1 cur.1 = true) →
      (∀ t ∈ p, cur.1 = (assignTerm f s t).1 ∨ mc cur.1 (assignTerm f s t).1 = true) → PolyOK vc mc (assignLoop f s p cur out) := by
  have snoc : ∀ (cur : Mono × R) (out : PV Mono R), PolyOK vc mc out → Valid vc cur.1 → (∀ t ∈ out, mc t.1 cur.1 = true) →
      PolyOK vc mc (if cur.2 ≠ 0 then out ++ [cur] else out) := by
    intro cur out h1 h2 h3
    split
    · rename_i h0
      refine ⟨?_, ?_, ?_⟩
      · intro t ht
        rcases List.mem_append.1 ht with ht | ht
        · exact h1.monos t ht
        · rw [List.mem_singleton] at ht; rw [ht]; exact h2
      · exact List.pairwise_append.2 ⟨h1.canon.1, by simp, fun a ha b hb => by rw [List.mem_singleton] at hb; rw [hb]; exact h3 a ha⟩
      · intro t ht
        rcases List.mem_append.1 ht with ht | ht
        · exact h1.canon.2 t ht
        · rw [List.mem_singleton] at ht; rw [ht]; exact h0
    · exact h1
  induction p with
  | nil => intro cur out h1 h2 h3 _; exact snoc cur out h1 h2 h3
  | cons t p ih =>
    intro cur out h1 h2 h3 h4
    have hp := List.pairwise_cons.1 hw
    have ih := ih (fun t ht => hv t (List.mem_cons_of_mem _ ht)) hp.2
    have vt := assignTerm_valid f s (hv t (by simp))
    unfold assignLoop
    dsimp only
    by_cases h : (!Mono.beq (assignTerm f s t).1 cur.1) = true
    · rw [if_pos h]
      have hne : (assignTerm f s t).1 ≠ cur.1 := by intro e; rw [(beq_iff _ _).2 e] at h; simp at h
      have hgt := (h4 t (by simp)).resolve_left (Ne.symm hne)
      refine ih _ _ (snoc cur out h1 h2 h3) vt ?_ fun u hu => hp.1 u hu
      intro u hu
      split at hu
      · rcases List.mem_append.1 hu with hu | hu
        · exact M.lawful.trans _ _ _ (h1.monos u hu) h2 vt (h3 u hu) hgt
        · rw [List.mem_singleton] at hu; rw [hu]; exact hgt
      · exact M.lawful.trans _ _ _ (h1.monos u hu) h2 vt (h3 u hu) hgt
    · rw [if_neg h]
      exact ih (cur.1, _) out h1 h2 h3 fun u hu => h4 u (List.mem_cons_of_mem _ hu)

/-- lex orders, when the substituted variables come after the kept ones: the result is canonical -/
theorem assign_ok (ho : VarOrd vc) (f : R₂ →+* R) {s : Var → Option R} (hs : ∀ u w, s u = none → (s w).isSome = true → vc u w = true)
    {p : PV Mono R₂} (hp : PolyOK vc (lexGt vc) p) : PolyOK vc (lexGt vc) (assign vc (lexGt vc) f s p) := by
  have M := lex_ord ho
  cases p with
  | nil => exact .nil
  | cons t p =>
    have hw : (t :: p).Pairwise fun a b => (assignTerm f s a).1 = (assignTerm f s b).1 ∨ lexGt vc (assignTerm f s a).1 (assignTerm f s b).1 = true :=
      hp.canon.1.imp_of_mem fun {a b} ha hb hab => assignTerm_weak ho f hs (hp.monos a ha) (hp.monos b hb) hab
    have hw' := List.pairwise_cons.1 hw
    have := assignLoop_ok M f s p (fun t ht => hp.monos t (List.mem_cons_of_mem _ ht)) hw'.2 (assignTerm f s t) [] .nil
      (assignTerm_valid f s (hp.monos t (by simp))) (by simp) fun u hu => hw'.1 u hu
    show PolyOK vc (lexGt vc) (polyNormalize vc (lexGt vc) _)
    rw [polyNormalize_id M this]
    exact this

/-- every variable substituted: the result is a constant -/
theorem assign_full (M : MonoOrd vc mc) (f : R₂ →+* R) {a : Var → R} {p : PV Mono R₂} (hp : PolyOK vc mc p) :
    PolyOK vc mc (assign vc mc f (fun v => some (a v)) p) ∧ val (assign vc mc f (fun v => some (a v)) p) = C (eval₂ f a (val p)) := by
  refine ⟨?_, ?_⟩
  · cases p with
    | nil => exact .nil
    | cons t p =>
      have key : ∀ u : Mono × R₂, (assignTerm f (fun v => some (a v)) u).1 = one := by
        intro u; unfold assignTerm; simp [mkMono, one, sumDeg]
      have := assignLoop_ok M f (fun v => some (a v)) p (fun t ht => hp.monos t (List.mem_cons_of_mem _ ht))
        (List.pairwise_of_forall fun x y => .inl (by rw [key, key])) (assignTerm f (fun v => some (a v)) t) [] .nil
        (assignTerm_valid f _ (hp.monos t (by simp))) (by simp) fun u _ => .inl (by rw [key, key])
      show PolyOK vc mc (polyNormalize vc mc _)
      rw [polyNormalize_id M this]
      exact this
  · rw [(assign_spec M f _ fun t ht x hx => ((hp.monos t ht).pos x hx).le).2]
    show eval₂ (C.comp f) (fun v => C (a v)) (val p) = _
    rw [eval₂_comp_left C f a (val p)]; rfl

end assign
end CLPoly
