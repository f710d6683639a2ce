import Verif.Charset.Sqf

/-! # `Wucharset`: correctness and termination -/

namespace CLPoly
namespace Charset
open Mono MvPolynomial Mgcd Run

variable {vc : Var → Var → Bool} {R : Type*} [CommRing R] [DecidableEq R]

/-- triangular set: no constants, main variables strictly increasing -/
def Triangular (vc : Var → Var → Bool) (L : List (MvPolynomial Var R)) : Prop :=
  (∀ c ∈ L, c.vars ≠ ∅) ∧ L.Pairwise fun c d => ∃ v w, IsMain vc c v ∧ IsMain vc d w ∧ vc w v = true

/-! ## loops -/

theorem runMap_post {α β : Type} {f : α → Run β} {Q : α → β → Prop} : ∀ {l : List α}, (∀ a ∈ l, Post (f a) (Q a)) → Post (runMap f l) (List.Forall₂ Q l) := by
  intro l
  induction l with
  | nil => intro _; exact Post.ret List.Forall₂.nil
  | cons a l ih =>
    intro h
    exact (h a (by simp)).bind fun b hb => (ih fun x hx => h x (List.mem_cons_of_mem _ hx)).bind fun bs hbs => Post.ret (List.Forall₂.cons hb hbs)

theorem runCollect_post {α β : Type} {f : α → Run (Option (List β))} {Q : α → List β → Prop} : ∀ {l : List α}, (∀ a ∈ l, Post (f a) fun r => ∀ x, r = some x → Q a x) →
    Post (runCollect f l) fun r => ∀ L, r = some L → ∃ g, L = g.flatten ∧ List.Forall₂ Q l g := by
  intro l
  induction l with
  | nil => intro _; exact Post.ret fun L e => ⟨[], by simp at e; simp [e], List.Forall₂.nil⟩
  | cons a l ih =>
    intro h
    refine (h a (by simp)).bind fun r hr => ?_
    cases r with
    | none => exact Post.ret fun L e => by simp at e
    | some x =>
      refine (ih fun y hy => h y (List.mem_cons_of_mem _ hy)).bind fun s hs => Post.ret fun L e => ?_
      cases s with
      | none => simp at e
      | some y =>
        simp only [Option.map_some, Option.some.injEq] at e
        obtain ⟨g, rfl, hg⟩ := hs y rfl
        exact ⟨x :: g, by rw [← e]; rfl, List.Forall₂.cons (hr x rfl) hg⟩

theorem runMap_sub {α β : Type} {f f' : α → Run β} (h : ∀ a, Run.Sub (f a) (f' a)) : ∀ l, Run.Sub (runMap f l) (runMap f' l) := by
  intro l
  induction l with
  | nil => exact Run.Sub.refl _
  | cons a l ih => exact Run.Sub.bind (h a) fun b => Run.Sub.bind ih fun _ => Run.Sub.refl _

/-- runs of `f` with a result other than "out of fuel" are runs of `f'` -/
def SubS {β : Type} (m m' : Run (Option β)) : Prop := ∀ s x rest, m s = some (some x, rest) → m' s = some (some x, rest)

theorem runCollect_sub {α β : Type} {f f' : α → Run (Option (List β))} (h : ∀ a, SubS (f a) (f' a)) : ∀ l, SubS (runCollect f l) (runCollect f' l) := by
  intro l
  induction l with
  | nil => exact fun s x rest e => e
  | cons a l ih =>
    intro s x rest e
    simp only [runCollect, Run.bind, Option.bind_eq_some_iff] at e ⊢
    obtain ⟨⟨r, s1⟩, e1, e⟩ := e
    cases r with
    | none => simp [Run.ret] at e
    | some y =>
      refine ⟨(some y, s1), h a s y s1 e1, ?_⟩
      simp only [Run.bind, Option.bind_eq_some_iff] at e ⊢
      obtain ⟨⟨r, s2⟩, e2, e⟩ := e
      cases r with
      | none => simp [Run.ret] at e
      | some z => exact ⟨(some z, s2), ih s1 z s2 e2, e⟩

theorem wuCharset_sub {chk : Bool} {sq sq' : PV Mono ℤ → Run (PV Mono ℤ)} (h : ∀ F, Run.Sub (sq F) (sq' F)) : ∀ (n : ℕ) (P : List (PV Mono ℤ)),
    SubS (wuCharset vc chk sq n P) (wuCharset vc false sq' n P) := by
  intro n
  induction n with
  | zero => intro P s x rest e; simp [wuCharset, Run.ret] at e
  | succ n ih =>
    intro P s x rest e
    unfold wuCharset at e ⊢
    cases hc : charset vc chk gtZ n P with
    | none => rw [hc] at e; simp [Run.ret] at e
    | some o =>
      cases o with
      | none => rw [hc] at e; simp [Run.fail] at e
      | some C =>
        rw [charset_code hc]
        rw [hc] at e
        dsimp only at e ⊢
        simp only [Run.bind, Option.bind_eq_some_iff] at e ⊢
        obtain ⟨⟨C', s1⟩, e1, e⟩ := e
        refine ⟨(C', s1), runMap_sub h C _ _ e1, ?_⟩
        dsimp only at e ⊢
        by_cases hn : isNumber (C'.headD []) = true
        · rw [if_pos hn] at e ⊢; exact e
        rw [if_neg hn] at e ⊢
        simp only [Run.bind, Option.bind_eq_some_iff] at e ⊢
        obtain ⟨⟨r, s2⟩, e2, e⟩ := e
        cases r with
        | none => simp [Run.ret] at e
        | some z =>
          refine ⟨(some z, s2), runCollect_sub (fun a => ?_) C' _ _ _ e2, e⟩
          intro s x rest e
          by_cases hl : isNumber (leadLex a) = true
          · rw [if_pos hl] at e ⊢; exact e
          · rw [if_neg hl] at e ⊢; exact ih _ _ _ _ e

/-! ## values at a point -/

section
variable {K : Type*} [CommRing K] [IsDomain K] [CharZero K] (a : Var → K)

theorem aeval_C_ne {z : ℤ} (h : z ≠ 0) : aeval a (C z : MvPolynomial Var ℤ) ≠ 0 := by
  rw [algHom_C]; simpa using h

theorem const_ne {f : MvPolynomial Var ℤ} (h : f.vars = ∅) (h0 : f ≠ 0) : aeval a f ≠ 0 := by
  rw [vars_eq_empty_iff_eq_C] at h
  rw [h]
  refine aeval_C_ne a fun e => h0 ?_
  rw [h, e, C_0]

omit [IsDomain K] [CharZero K] in
theorem idl_zero {P : List (MvPolynomial Var ℤ)} (h : ∀ p ∈ P, aeval a p = 0) {f : MvPolynomial Var ℤ} (hf : f ∈ idl P) : aeval a f = 0 := by
  have : idl P ≤ RingHom.ker (aeval a : MvPolynomial Var ℤ →ₐ[ℤ] K) := Ideal.span_le.2 fun p hp => h p hp
  exact this hf

omit [CharZero K] in
theorem inits_ne {C : List (MvPolynomial Var ℤ)} (h : ∀ c ∈ C, ∀ I, IsInit vc c I → aeval a I ≠ 0) {m : MvPolynomial Var ℤ} (hm : m ∈ inits vc C) : aeval a m ≠ 0 := by
  have : inits vc C ≤ (nonZeroDivisors K).comap (aeval a : MvPolynomial Var ℤ →ₐ[ℤ] K) := by
    refine Submonoid.closure_le.2 ?_
    rintro I ⟨c, hc, hI⟩
    exact mem_nonZeroDivisors_of_ne_zero (h c hc I hI)
  exact nonZeroDivisors.ne_zero (this hm)

theorem IsSqf.zero_iff {F s : MvPolynomial Var ℤ} (h : IsSqf F s) : aeval a F = 0 ↔ aeval a s = 0 := by
  constructor
  · intro e
    obtain ⟨z, z0, k, t, ht⟩ := h.back
    have := congrArg (aeval a) ht
    rw [map_mul, map_mul, map_pow, e, zero_mul] at this
    exact pow_eq_zero_iff_of_pos_or this (aeval_C_ne a z0)
  · intro e
    obtain ⟨t, ht⟩ := h.dvd
    rw [ht, map_mul, e, zero_mul]
where
  pow_eq_zero_iff_of_pos_or {x y : K} {k : ℕ} (h : x * y ^ k = 0) (hx : x ≠ 0) : y = 0 := by
    rcases mul_eq_zero.1 h with h | h
    · exact absurd h hx
    · by_cases hk : k = 0
      · rw [hk, pow_zero] at h; exact absurd h one_ne_zero
      · exact (pow_eq_zero_iff hk).1 h

theorem lc_dvd {v : Var} {f g : MvPolynomial Var ℤ} (h : f ∣ g) : (toU v f).leadingCoeff ∣ (toU v g).leadingCoeff := by
  obtain ⟨t, rfl⟩ := h
  rw [map_mul, Polynomial.leadingCoeff_mul]; exact dvd_mul_right _ _

theorem init_iff {f I : MvPolynomial Var ℤ} {v : Var} (ho : VarOrd vc) (hv : IsMain vc f v) : IsInit vc f I ↔ I = (toU v f).leadingCoeff := by
  constructor
  · rintro ⟨w, hw, h⟩
    rw [hw.unique ho hv] at h
    rw [isCoeff_iff.1 h, Polynomial.leadingCoeff, natDegree_toU]
  · rintro rfl
    refine ⟨v, hv, ?_⟩
    rw [Polynomial.leadingCoeff, natDegree_toU]; exact toU_coeff _ _ _

/-- the initial of `F` and of its squarefree part vanish at the same points -/
theorem IsSqf.init_iff {F s : MvPolynomial Var ℤ} (h : IsSqf F s) {v : Var} : aeval a (toU v F).leadingCoeff = 0 ↔ aeval a (toU v s).leadingCoeff = 0 := by
  constructor
  · intro e
    obtain ⟨z, z0, k, hk⟩ := h.back
    have h1 := lc_dvd (v := v) hk
    rw [map_mul, map_pow, Polynomial.leadingCoeff_mul, Polynomial.leadingCoeff_pow, toU_free (f := C z) (by rw [vars_C]; simp), Polynomial.leadingCoeff_C] at h1
    obtain ⟨t, ht⟩ := h1
    have := congrArg (aeval a) ht
    rw [map_mul, map_mul, map_pow, e, zero_mul] at this
    exact IsSqf.zero_iff.pow_eq_zero_iff_of_pos_or this (aeval_C_ne a z0)
  · intro e
    obtain ⟨t, ht⟩ := lc_dvd (v := v) h.dvd
    rw [ht, map_mul, e, zero_mul]

end

/-! ## one call -/

theorem main_congr {f g : MvPolynomial Var R} (h : f.vars = g.vars) {v : Var} : IsMain vc f v ↔ IsMain vc g v := by unfold IsMain; rw [h]

theorem good_vars {c : PV Mono ℤ} (ho : VarOrd vc) (hc : LP vc c ∧ c ≠ []) : val c ≠ 0 := fun e => hc.2 ((hc.1.val_eq_zero (lex_ord ho)).1 e)

/-- what `sqrfree` is required to do -/
def SqSpec (vc : Var → Var → Bool) (sq : PV Mono ℤ → Run (PV Mono ℤ)) : Prop :=
  ∀ F, LP vc F → F ≠ [] → Post (sq F) fun s => LP vc s ∧ IsSqf (val F) (val s)

theorem lead_spec (ho : VarOrd vc) {s : PV Mono ℤ} (hs : LP vc s) (hn : isNumber s = false) : LP vc (leadLex s) ∧ leadLex s ≠ [] ∧ IsMain vc (val s) (pFirstVar s) ∧
    val (leadLex s) = (toU (pFirstVar s) (val s)).leadingCoeff := by
  obtain ⟨l1, l2, l3⟩ := leadLex_spec ho hs hn
  have s0 : val s ≠ 0 := fun e => by rw [e] at l2; simp at l2
  refine ⟨l1, fun e => l3.lead_ne s0 (by rw [e, val_nil]), (main_spec ho hs hn).1, ?_⟩
  rw [isCoeff_iff.1 l3, Polynomial.leadingCoeff, natDegree_toU]

/-- the relation between the chain and the chain of squarefree parts -/
abbrev SqRel (vc : Var → Var → Bool) (c s : PV Mono ℤ) : Prop := LP vc s ∧ IsSqf (val c) (val s)

theorem forall₂_mem {α β : Type*} {Q : α → β → Prop} {l : List α} {l' : List β} (h : List.Forall₂ Q l l') : (∀ a ∈ l, ∃ b ∈ l', Q a b) ∧ ∀ b ∈ l', ∃ a ∈ l, Q a b := by
  induction h with
  | nil => simp
  | cons h _ ih =>
    constructor
    · intro x hx
      rcases List.mem_cons.1 hx with rfl | hx
      · exact ⟨_, by simp, h⟩
      · obtain ⟨b, hb, hq⟩ := ih.1 x hx; exact ⟨b, List.mem_cons_of_mem _ hb, hq⟩
    · intro x hx
      rcases List.mem_cons.1 hx with rfl | hx
      · exact ⟨_, by simp, h⟩
      · obtain ⟨b, hb, hq⟩ := ih.2 x hx; exact ⟨b, List.mem_cons_of_mem _ hb, hq⟩

theorem tri_of_asc (ho : VarOrd vc) {C C' : List (PV Mono ℤ)} (hC : ∀ c ∈ C, LP vc c ∧ c ≠ []) (hA : AscChain vc (C.map val)) (h : List.Forall₂ (SqRel vc) C C') :
    Triangular vc (C'.map val) := by
  induction h with
  | nil => exact ⟨by simp, by simp⟩
  | @cons c s C C' hcs hf ih =>
    have hA' : AscChain vc (C.map val) := ⟨fun d hd => hA.1 d (List.mem_cons_of_mem _ hd), (List.pairwise_cons.1 hA.2).2⟩
    obtain ⟨i1, i2⟩ := ih (fun x hx => hC x (List.mem_cons_of_mem _ hx)) hA'
    have hv : (val s).vars = (val c).vars := hcs.2.vars (good_vars ho (hC c (by simp)))
    refine ⟨?_, ?_⟩
    · intro x hx
      rcases List.mem_cons.1 hx with rfl | hx
      · rw [hv]; exact hA.1 _ (by simp)
      · exact i1 x hx
    · refine List.pairwise_cons.2 ⟨fun x hx => ?_, i2⟩
      obtain ⟨d', hd', rfl⟩ := List.mem_map.1 hx
      obtain ⟨d, hd, hdd⟩ := (forall₂_mem hf).2 d' hd'
      obtain ⟨-, v, w, h1, h2, h3⟩ := (List.pairwise_cons.1 hA.2).1 (val d) (List.mem_map.2 ⟨d, hd, rfl⟩)
      refine ⟨v, w, (main_congr hv).2 h1, (main_congr (hdd.2.vars (good_vars ho (hC d (List.mem_cons_of_mem _ hd))))).2 h2, h3⟩

/-- what `Wucharset` returns -/
structure WuOut (vc : Var → Var → Bool) (P : List (MvPolynomial Var ℤ)) (L : List (List (PV Mono ℤ))) : Prop where
  tri : ∀ T ∈ L, T ≠ [] ∧ (∀ t ∈ T, LP vc t ∧ Squarefree (val t)) ∧ Triangular vc (T.map val)
  zeros : ∀ {K : Type} [CommRing K] [IsDomain K] [CharZero K] (a : Var → K), (∀ p ∈ P, aeval a p = 0) ↔
    ∃ T ∈ L, ∀ t ∈ T, aeval a (val t) = 0 ∧ ∀ I, IsInit vc (val t) I → aeval a I ≠ 0

theorem gtZ_lawful : Lawful (fun _ : ℤ => True) gtZ where
  irrefl := fun a _ => by simp [gtZ]
  trans := fun a b c _ _ _ h1 h2 => by simp [gtZ] at *; omega
  total := fun a b _ _ h => by simp [gtZ]; omega

theorem headNum {C : List (PV Mono ℤ)} (ho : VarOrd vc) {P : List (MvPolynomial Var ℤ)} (h : IsCharset vc P C) {C' : List (PV Mono ℤ)} (hf : List.Forall₂ (SqRel vc) C C') :
    (isNumber (C'.headD []) = true ∧ ∃ c ∈ C, (val c).vars = ∅) ∨ (isNumber (C'.headD []) = false ∧ C' ≠ [] ∧ C ≠ [] ∧ AscChain vc (C.map val) ∧
      (∀ p ∈ P, ∃ m ∈ inits vc (C.map val), m * p ∈ idl (C.map val)) ∧ ∀ p : PV Mono ℤ, LP vc p → val p ∈ P → chainRem vc true C p = some []) := by
  rcases h.alt with ⟨c, rfl, hc⟩ | ⟨h1, h2, h3⟩
  · left
    cases hf with
    | cons hcs hf =>
      cases hf
      have hcok := h.ok c (by simp)
      have hz := (num_iff ho hcok.1).1 hc
      refine ⟨?_, c, by simp, hz⟩
      rename_i b
      show isNumber b = true
      rw [num_iff ho hcs.1, hcs.2.vars (good_vars ho hcok), hz]
  · right
    have hrem : ∀ p : PV Mono ℤ, LP vc p → val p ∈ P → chainRem vc true C p = some [] := by
      rcases h.rem with ⟨c, rfl, hc⟩ | hr
      · exact absurd ((num_iff ho (h.ok c (by simp)).1).1 hc) (h2.1 _ (by simp))
      · exact hr
    cases hf with
    | nil => exact absurd rfl h1
    | @cons c s C C' hcs hf =>
      have hcok := h.ok c (by simp)
      refine ⟨?_, by simp, by simp, h2, h3, hrem⟩
      show isNumber s = false
      rw [num_false ho hcs.1, hcs.2.vars (good_vars ho hcok)]
      exact h2.1 _ (by simp)

theorem wuCharset_spec (ho : VarOrd vc) {sq : PV Mono ℤ → Run (PV Mono ℤ)} (hsq : SqSpec vc sq) : ∀ (n : ℕ) (P : List (PV Mono ℤ)), Good vc P → P ≠ [] →
    Post (wuCharset vc true sq n P) fun r => ∀ L, r = some L → WuOut vc (P.map val) L := by
  intro n
  induction n with
  | zero => intro P _ _; exact Post.ret (by simp)
  | succ n ih =>
    intro P hP hne
    unfold wuCharset
    cases hc : charset vc true gtZ n P with
    | none => exact Post.ret (by simp)
    | some o =>
      cases o with
      | none => exact Post.fail
      | some C =>
        dsimp only
        have hcs := charset_spec ho gtZ_lawful hP hne hc
        refine (runMap_post (Q := SqRel vc) fun c hc => hsq c (hcs.ok c hc).1 (hcs.ok c hc).2).bind fun C' hf => ?_
        obtain ⟨f1, f2⟩ := forall₂_mem hf
        rcases headNum ho hcs hf with ⟨hn, c, hcC, hcv⟩ | ⟨hn, c'ne, cne, hA, hpseudo, hrem⟩
        · rw [if_pos hn]
          refine Post.ret fun L e => ?_
          simp only [Option.some.injEq] at e
          subst e
          refine ⟨by simp, fun a => ⟨fun h => ?_, by simp⟩⟩
          exact absurd (idl_zero a h (hcs.sub c hcC)) (const_ne a hcv (good_vars ho (hcs.ok c hcC)))
        rw [if_neg (by rw [hn]; simp)]
        have notnum : ∀ s ∈ C', isNumber s = false := fun s hs => by
          obtain ⟨c, hc, hcs'⟩ := f2 s hs
          rw [num_false ho hcs'.1, hcs'.2.vars (good_vars ho (hcs.ok c hc))]
          exact hA.1 _ (List.mem_map.2 ⟨c, hc, rfl⟩)
        have hinit : ∀ s ∈ C', ∀ I, IsInit vc (val s) I ↔ I = val (leadLex s) := fun s hs I => by
          obtain ⟨-, -, l3, l4⟩ := lead_spec ho (f2 s hs).choose_spec.2.1 (notnum s hs)
          rw [init_iff ho l3, l4]
        refine (runCollect_post (Q := fun f L => isNumber (leadLex f) = true ∧ L = [] ∨ isNumber (leadLex f) = false ∧ WuOut vc ((P ++ [leadLex f]).map val) L) fun s hs => ?_).bind fun r hr => Post.ret fun L e => ?_
        · refine Post.ite (fun h => Post.ret fun x hx => .inl ⟨h, by simpa using hx.symm⟩) fun h => ?_
          obtain ⟨l1, l2, -, -⟩ := lead_spec ho (f2 s hs).choose_spec.2.1 (notnum s hs)
          refine (ih (P ++ [leadLex s]) (fun x hx => ?_) (by simp)).mono fun r hr x hx => .inr ⟨by simpa using h, hr x hx⟩
          rcases List.mem_append.1 hx with hx | hx
          · exact hP x hx
          · rw [List.mem_singleton] at hx; subst hx; exact ⟨l1, l2⟩
        · cases r with
          | none => simp at e
          | some L' =>
            simp only [Option.map_some, Option.some.injEq] at e
            subst e
            obtain ⟨g, rfl, hg⟩ := hr L' rfl
            obtain ⟨g1, g2⟩ := forall₂_mem hg
            constructor
            · intro T hT
              rcases List.mem_cons.1 hT with rfl | hT
              · refine ⟨c'ne, fun t ht => ?_, tri_of_asc ho hcs.ok hA hf⟩
                obtain ⟨c, hc, h1, h2⟩ := f2 t ht
                exact ⟨h1, h2.sqf⟩
              · obtain ⟨x, hx, hTx⟩ := List.mem_flatten.1 hT
                obtain ⟨s, hs, hw⟩ := g2 x hx
                rcases hw with ⟨-, rfl⟩ | ⟨-, hw⟩
                · simp at hTx
                · exact hw.tri T hTx
            · intro K _ _ _ a
              constructor
              · intro hz
                by_cases hall : ∀ s ∈ C', aeval a (val (leadLex s)) ≠ 0
                · refine ⟨C', by simp, fun t ht => ⟨?_, fun I hI => ?_⟩⟩
                  · obtain ⟨c, hc, h1, h2⟩ := f2 t ht
                    rw [← h2.zero_iff a]
                    exact idl_zero a hz (hcs.sub c hc)
                  · rw [(hinit t ht I).1 hI]; exact hall t ht
                · push Not at hall
                  obtain ⟨s, hs, hs0⟩ := hall
                  obtain ⟨x, hx, hw⟩ := g1 s hs
                  obtain ⟨l1, l2, -, -⟩ := lead_spec ho (f2 s hs).choose_spec.2.1 (notnum s hs)
                  rcases hw with ⟨h1, -⟩ | ⟨-, hw⟩
                  · exact absurd hs0 (const_ne a ((num_iff ho l1).1 h1) (good_vars ho ⟨l1, l2⟩))
                  · obtain ⟨T, hT, hT'⟩ := (hw.zeros a).1 (fun p hp => by
                      rw [List.map_append, List.map_singleton, List.mem_append, List.mem_singleton] at hp
                      rcases hp with hp | rfl
                      · exact hz p hp
                      · exact hs0)
                    exact ⟨T, List.mem_cons_of_mem _ (List.mem_flatten.2 ⟨x, hx, hT⟩), hT'⟩
              · rintro ⟨T, hT, hT'⟩
                rcases List.mem_cons.1 hT with rfl | hT
                · intro p hp
                  obtain ⟨m, hm, hmp⟩ := hpseudo p hp
                  have hC0 : ∀ c ∈ C.map val, aeval a c = 0 := fun c hc => by
                    obtain ⟨d, hd, rfl⟩ := List.mem_map.1 hc
                    obtain ⟨s, hs, h1, h2⟩ := f1 d hd
                    rw [h2.zero_iff a]; exact (hT' s hs).1
                  have h1 := idl_zero a hC0 hmp
                  have h2 : aeval a m ≠ 0 := inits_ne a (fun c hc I hI => by
                    obtain ⟨d, hd, rfl⟩ := List.mem_map.1 hc
                    obtain ⟨s, hs, h1, h2⟩ := f1 d hd
                    obtain ⟨-, -, l3, l4⟩ := lead_spec ho h1 (notnum s hs)
                    have hm := (main_congr (h2.vars (good_vars ho (hcs.ok d hd)))).1 l3
                    rw [(init_iff ho hm).1 hI, Ne, h2.init_iff a, ← l4]
                    exact (hT' s hs).2 _ ((hinit s hs _).2 rfl)) hm
                  rw [map_mul] at h1
                  exact (mul_eq_zero.1 h1).resolve_left h2
                · obtain ⟨x, hx, hTx⟩ := List.mem_flatten.1 hT
                  obtain ⟨s, hs, hw⟩ := g2 x hx
                  rcases hw with ⟨-, rfl⟩ | ⟨-, hw⟩
                  · simp at hTx
                  · intro p hp
                    refine (hw.zeros a).2 ⟨T, hTx, hT'⟩ p ?_
                    rw [List.map_append]; exact List.mem_append_left _ hp

/-! ## termination -/

theorem chainRem_self (ho : VarOrd vc) {r : PV Mono ℤ} (hr : LP vc r) : ∀ {C : List (PV Mono ℤ)} {g : PV Mono ℤ}, (∀ c ∈ C, LP vc c ∧ isNumber c = false) →
    (∀ c ∈ C, (val r).degreeOf (pFirstVar c) < (val c).degreeOf (pFirstVar c)) → chainRem vc true C r = some g → g = r := by
  intro C
  induction C with
  | nil => intro g _ _ h; simp only [chainRem, List.foldr_nil, Option.some.injEq] at h; exact h.symm
  | cons c C ih =>
    intro g hC hd h
    have h' : (chainRem vc true C r).bind (fun g => premC vc true false (pFirstVar c) g c) = some g := h
    obtain ⟨g', e1, e2⟩ := Option.bind_eq_some_iff.1 h'
    have := ih (fun d hd => hC d (List.mem_cons_of_mem _ hd)) (fun d h => hd d (List.mem_cons_of_mem _ h)) e1
    subst this
    obtain ⟨c1, c2⟩ := hC c (by simp)
    have c0 : c ≠ [] := by rintro rfl; simp [isNumber] at c2
    obtain ⟨o1, Q, -, ⟨L, e, -, he, -, heq⟩, hS⟩ := premC_spec ho hr c1 c0 e2
    have hdc := hd c (by simp)
    have e0 : e = 0 := by omega
    subst e0
    rw [pow_zero, one_mul] at heq
    have hQ : val Q = 0 := by
      by_contra hne
      have k1 : (val Q * val c).degreeOf (pFirstVar c) = (val Q).degreeOf (pFirstVar c) + (val c).degreeOf (pFirstVar c) :=
        degreeOf_mul_dom hne (fun e => c0 ((c1.val_eq_zero (lex_ord ho)).1 e))
      have k2 : val Q * val c = val g' - val g := by rw [heq]; ring
      have k3 : (val g' - val g).degreeOf (pFirstVar c) < (val c).degreeOf (pFirstVar c) := by
        rw [← natDegree_toU, map_sub]
        refine lt_of_le_of_lt (Polynomial.natDegree_sub_le _ _) ?_
        rw [natDegree_toU, natDegree_toU, max_lt_iff]
        refine ⟨hdc, ?_⟩
        rcases hS with z | z
        · rw [z, degreeOf_zero]; exact lt_of_le_of_lt (Nat.zero_le _) hdc
        · exact z
      rw [← k2, k1] at k3
      omega
    rw [hQ, zero_mul, zero_add] at heq
    exact o1.ext (lex_ord ho) hr heq.symm

/-- `P'` is the argument of a recursive call that `Wucharset(P)` can make -/
def Call (vc : Var → Var → Bool) (P' P : List (PV Mono ℤ)) : Prop :=
  Good vc P ∧ P ≠ [] ∧ ∃ n C, charset vc true gtZ n P = some (some C) ∧ AscChain vc (C.map val) ∧
    ∃ c ∈ C, ∃ s, LP vc s ∧ IsSqf (val c) (val s) ∧ isNumber (leadLex s) = false ∧ P' = P ++ [leadLex s]

theorem asc_ne (ho : VarOrd vc) {C : List (PV Mono ℤ)} (hC : ∀ c ∈ C, LP vc c ∧ c ≠ []) (hA : AscChain vc (C.map val)) : ∀ c ∈ C, LP vc c ∧ isNumber c = false :=
  fun c hc => ⟨(hC c hc).1, (num_false ho (hC c hc).1).2 (hA.1 _ (List.mem_map.2 ⟨c, hc, rfl⟩))⟩

/-- degrees of elements of an ascending chain in each other's main variables -/
theorem asc_deg (ho : VarOrd vc) {C : List (PV Mono ℤ)} (hC : ∀ c ∈ C, LP vc c ∧ c ≠ []) (hA : AscChain vc (C.map val)) {c d : PV Mono ℤ} (hc : c ∈ C) (hd : d ∈ C) :
    c = d ∨ (val c).degreeOf (pFirstVar d) < (val d).degreeOf (pFirstVar d) := by
  have hnum := asc_ne ho hC hA
  have key : C.Pairwise fun x y => (val x).degreeOf (pFirstVar y) < (val y).degreeOf (pFirstVar y) ∧ (val y).degreeOf (pFirstVar x) < (val x).degreeOf (pFirstVar x) := by
    have h1 := List.pairwise_map.1 hA.2
    refine h1.imp_of_mem fun {x y} hx hy h => ?_
    obtain ⟨⟨u, hu, hlt⟩, v, w, hv, hw, hvw⟩ := h
    obtain ⟨mx, -⟩ := main_spec ho (hnum x hx).1 (hnum x hx).2
    obtain ⟨my, -⟩ := main_spec ho (hnum y hy).1 (hnum y hy).2
    constructor
    · have : (val x).degreeOf (pFirstVar y) = 0 := by
        rw [degreeOf_zero_iff]
        intro hm
        rw [my.unique ho hw] at hm
        rcases hv.2 _ hm with e | e
        · rw [e, ho.irrefl _ trivial] at hvw; exact absurd hvw (by simp)
        · rw [asymm ho hvw] at e; exact absurd e (by simp)
      rw [this]; exact main_pos my
    · rw [mx.unique ho hu]; exact hlt
  by_cases e : c = d
  · exact .inl e
  right
  obtain ⟨i, hi, rfl⟩ := List.getElem_of_mem hc
  obtain ⟨j, hj, rfl⟩ := List.getElem_of_mem hd
  rcases lt_trichotomy i j with hij | hij | hij
  · exact (List.pairwise_iff_getElem.1 key i j hi hj hij).1
  · subst hij; exact absurd rfl e
  · exact (List.pairwise_iff_getElem.1 key j i hj hi hij).2

theorem Call.facts (ho : VarOrd vc) {P' P : List (PV Mono ℤ)} (h : Call vc P' P) : ∃ C r, P' = P ++ [r] ∧ LP vc r ∧ r ≠ [] ∧
    (∀ c ∈ C, LP vc c ∧ isNumber c = false) ∧ (∀ p ∈ P, chainRem vc true C p = some []) ∧
    (∀ c ∈ C, (val r).degreeOf (pFirstVar c) < (val c).degreeOf (pFirstVar c)) ∧
    ∀ V : Finset Var, (∀ p ∈ P, (val p).vars ⊆ V) → (val r).vars ⊆ V ∧ ∀ c ∈ C, (val c).vars ⊆ V := by
  obtain ⟨hP, hne, n, C, hc, hA, c, hcC, s, hs, hsq, hn, rfl⟩ := h
  have hcs := charset_spec ho gtZ_lawful hP hne hc
  have hnum := asc_ne ho hcs.ok hA
  have c0 := good_vars ho (hcs.ok c hcC)
  have hsn : isNumber s = false := by
    rw [num_false ho hs, hsq.vars c0]; exact hA.1 _ (List.mem_map.2 ⟨c, hcC, rfl⟩)
  obtain ⟨l1, l2, l3, l4⟩ := lead_spec ho hs hsn
  have hI : IsCoeff (pFirstVar s) ((val s).degreeOf (pFirstVar s)) (val s) (val (leadLex s)) := by
    rw [l4, Polynomial.leadingCoeff, natDegree_toU]; exact toU_coeff _ _ _
  refine ⟨C, leadLex s, rfl, l1, l2, hnum, fun p hp => ?_, fun d hd => ?_, fun V hV => ?_⟩
  · rcases hcs.rem with ⟨e, rfl, he⟩ | hr
    · rw [(hnum e (by simp)).2] at he; exact absurd he (by simp)
    · exact hr p (hP p hp).1 (List.mem_map.2 ⟨p, hp, rfl⟩)
  · rcases asc_deg ho hcs.ok hA hcC hd with e | e
    · subst e
      obtain ⟨mc, -⟩ := main_spec ho (hnum c hcC).1 (hnum c hcC).2
      have : pFirstVar c = pFirstVar s := mc.unique ho ((main_congr (hsq.vars c0)).1 l3)
      rw [this, hI.degreeOf, ← this]
      exact main_pos mc
    · exact lt_of_le_of_lt (hI.degreeOf_le.trans (degreeOf_le_of_dvd hsq.dvd c0)) e
  · have := hcs.vars V (fun p hp => by obtain ⟨q, hq, rfl⟩ := List.mem_map.1 hp; exact hV q hq)
    exact ⟨hI.vars_subset.trans ((hsq.vars c0).subset.trans (this c hcC)), this⟩

/-- the recursion of `Wucharset` is well-founded -/
theorem call_wf (ho : VarOrd vc) : WellFounded (Call vc) := by
  classical
  rw [wellFounded_iff_isEmpty_descending_chain]
  refine ⟨fun ⟨P, hP⟩ => ?_⟩
  choose C r h1 h2 h3 h4 h5 h6 h7 using fun k => (hP k).facts ho
  have mono : ∀ k m, k ≤ m → ∀ p ∈ P k, p ∈ P m := by
    intro k m hkm
    induction m, hkm using Nat.le_induction with
    | base => exact fun p h => h
    | succ m _ ih => exact fun p h => by rw [h1 m]; exact List.mem_append_left _ (ih p h)
  obtain ⟨V, hV⟩ : ∃ V : Finset Var, ∀ f ∈ P 0, (val f).vars ⊆ V :=
    ⟨(P 0).toFinset.biUnion fun f => (val f).vars, fun f hf => Finset.subset_biUnion_of_mem (fun f : PV Mono ℤ => (val f).vars) (List.mem_toFinset.2 hf)⟩
  have hV' : ∀ k, ∀ f ∈ P k, (val f).vars ⊆ V := by
    intro k
    induction k with
    | zero => exact hV
    | succ k ih =>
      intro f hf
      rw [h1 k] at hf
      rcases List.mem_append.1 hf with hf | hf
      · exact ih f hf
      · rw [List.mem_singleton] at hf; subst hf; exact (h7 k V ih).1
  obtain ⟨k, m, hkm, hle⟩ := wellQuasiOrdered_le (α := V → ℕ∞) (fun k v => rankV (C k) v)
  have hmem : r k ∈ P m := mono (k + 1) m hkm _ (by rw [h1 k]; simp)
  have hred : ∀ d ∈ C m, (val (r k)).degreeOf (pFirstVar d) < (val d).degreeOf (pFirstVar d) := by
    intro d hd
    obtain ⟨md, -⟩ := main_spec ho (h4 m d hd).1 (h4 m d hd).2
    have hdV : pFirstVar d ∈ V := (h7 m V (hV' m)).2 d hd md.1
    exact red_of_rank (hle ⟨_, hdV⟩) hd rfl (h6 k)
  exact h3 k (chainRem_self ho (h2 k) (h4 m) hred (h5 m _ hmem)).symm

theorem runCollect_ne {α β : Type} {f : α → Run (Option (List β))} : ∀ {l : List α}, (∀ a ∈ l, Post (f a) fun r => r ≠ none) →
    Post (runCollect f l) fun r => r ≠ none := by
  intro l
  induction l with
  | nil => intro _; exact Post.ret (by simp)
  | cons a l ih =>
    intro h
    refine (h a (by simp)).bind fun r hr => ?_
    cases r with
    | none => exact absurd rfl hr
    | some x =>
      refine (ih fun y hy => h y (List.mem_cons_of_mem _ hy)).bind fun s hs => Post.ret ?_
      cases s with
      | none => exact absurd rfl hs
      | some y => simp

theorem sqf_finite (ho : VarOrd vc) (F : MvPolynomial Var ℤ) : {s : PV Mono ℤ | LP vc s ∧ IsSqf F (val s)}.Finite := by
  have hinj : Set.InjOn (val (R := ℤ)) {s : PV Mono ℤ | LP vc s ∧ IsSqf F (val s)} := fun a ha b hb e => ha.1.ext (lex_ord ho) hb.1 e
  refine Set.Finite.of_finite_image ?_ hinj
  by_cases h : ∃ s : PV Mono ℤ, LP vc s ∧ IsSqf F (val s)
  · obtain ⟨s, -, hs⟩ := h
    refine Set.Finite.subset (s := {val s, - val s}) (by simp) ?_
    rintro _ ⟨t, ⟨-, ht⟩, rfl⟩
    exact hs.unique ht
  · have : {s : PV Mono ℤ | LP vc s ∧ IsSqf F (val s)} = ∅ := by
      ext s; simp only [Set.mem_setOf_eq, Set.mem_empty_iff_false, iff_false]; exact fun hs => h ⟨s, hs⟩
    rw [this, Set.image_empty]; exact Set.finite_empty

theorem call_finite (ho : VarOrd vc) (P : List (PV Mono ℤ)) : {P' | Call vc P' P}.Finite := by
  by_cases h : ∃ n C, charset vc true gtZ n P = some (some C)
  · obtain ⟨n, C, hC⟩ := h
    have : {P' | Call vc P' P} ⊆ ⋃ c ∈ {c | c ∈ C}, (fun s => P ++ [leadLex s]) '' {s : PV Mono ℤ | LP vc s ∧ IsSqf (val c) (val s)} := by
      rintro P' ⟨-, -, m, D, hD, -, c, hc, s, h1, h2, -, rfl⟩
      have e : D = C := by
        rcases le_total n m with hnm | hnm
        · have := charset_mono hnm hC; rw [hD] at this; simpa using this
        · have := charset_mono hnm hD; rw [hC] at this; simpa using this.symm
      subst e
      exact Set.mem_biUnion hc ⟨s, ⟨h1, h2⟩, rfl⟩
    exact Set.Finite.subset (Set.Finite.biUnion (List.finite_toSet C) fun c _ => (sqf_finite ho _).image _) this
  · have : {P' | Call vc P' P} = ∅ := by
      ext P'; simp only [Set.mem_setOf_eq, Set.mem_empty_iff_false, iff_false]
      rintro ⟨-, -, m, D, hD, -⟩; exact h ⟨m, D, hD⟩
    rw [this]; exact Set.finite_empty

theorem wuCharset_terminates (ho : VarOrd vc) {sq : PV Mono ℤ → Run (PV Mono ℤ)} (hsq : SqSpec vc sq) (P : List (PV Mono ℤ)) (hP : Good vc P) (hne : P ≠ []) :
    ∃ N, ∀ m ≥ N, Post (wuCharset vc true sq m P) fun r => r ≠ none := by
  classical
  induction P using (call_wf ho).induction with
  | h P ih =>
  obtain ⟨n0, hn0⟩ := charset_terminates (gt := gtZ) ho gtZ_lawful hP
  obtain ⟨o, ho'⟩ := Option.ne_none_iff_exists'.1 hn0
  have good' : ∀ P', Call vc P' P → Good vc P' ∧ P' ≠ [] := by
    intro P' h
    obtain ⟨C, r, rfl, h2, h3, -⟩ := h.facts ho
    refine ⟨fun x hx => ?_, by simp⟩
    rcases List.mem_append.1 hx with hx | hx
    · exact hP x hx
    · rw [List.mem_singleton] at hx; subst hx; exact ⟨h2, h3⟩
  choose! N hN using fun P' (h : Call vc P' P) => ih P' h (good' P' h).1 (good' P' h).2
  refine ⟨n0 + (call_finite ho P).toFinset.sup N + 1, fun m hm => ?_⟩
  obtain ⟨m, rfl⟩ : ∃ k, m = k + 1 := ⟨m - 1, by omega⟩
  have hc : charset vc true gtZ m P = some o := charset_mono (by omega) ho'
  unfold wuCharset
  rw [hc]
  cases o with
  | none => exact Post.fail
  | some C =>
    dsimp only
    have hcs := charset_spec ho gtZ_lawful hP hne hc
    refine (runMap_post (Q := SqRel vc) fun c hc => hsq c (hcs.ok c hc).1 (hcs.ok c hc).2).bind fun C' hf => ?_
    rcases headNum ho hcs hf with ⟨hn, c, hcC, hcv⟩ | ⟨hn, c'ne, cne, hA, hpseudo, hrem⟩
    · rw [if_pos hn]; exact Post.ret (by simp)
    rw [if_neg (by rw [hn]; simp)]
    refine (runCollect_ne fun s hs => ?_).bind fun r hr => Post.ret ?_
    · refine Post.ite (fun h => Post.ret (by simp)) fun h => ?_
      obtain ⟨c, hc1, hc2⟩ := (forall₂_mem hf).2 s hs
      have hcall : Call vc (P ++ [leadLex s]) P := ⟨hP, hne, m, C, hc, hA, c, hc1, s, hc2.1, hc2.2, by simpa using h, rfl⟩
      refine hN _ hcall m ?_
      have : N (P ++ [leadLex s]) ≤ (call_finite ho P).toFinset.sup N := Finset.le_sup (f := N) (by simpa using hcall)
      omega
    · cases r with
      | none => exact absurd rfl hr
      | some x => simp

end Charset
end CLPoly
