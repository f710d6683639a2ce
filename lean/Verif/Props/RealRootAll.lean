import Verif.Real.Spec

/-! # C98: `realroot`, the real roots of a list of polynomials in one variable

`uni f ∈ ℝ[X]` (Real/Spec.lean): a polynomial in at most one variable as a real polynomial.  `RootList Fs xs I` (Real/Spec.lean): `xs` are the real roots of the nonzero members of `Fs`,
strictly increasing, and the entry of `I` for `x` consists of the pairs (index `k`, multiplicity of `x` in `Fs[k]`) for the polynomials that vanish at `x`, each index once.
`Den r x` (Upoly/URoot.lean): the object `r` stands for the number `x`.  The result `none` of the model is the exception `std::invalid_argument`. -/

namespace CLPoly
open Mono Mgcd Run RealRt
open Upoly (URoot Den)

/-- **specification**: an argument of `realroot`: a polynomial in normal form, the null variable does not occur, degrees fit the 64-bit words -/
structure RealRootArg (vc : Var → Var → Bool) (mc : Mono → Mono → Bool) (f : PV Mono ℤ) : Prop where
  ok : PolyOK vc mc f
  null : 0 ∉ (val f).vars
  deg : ∀ w, (val f).degreeOf w < 2 ^ 63 - 1

variable {vc vc' : Var → Var → Bool} {mc' : Mono → Mono → Bool} {prev : ℕ → Option ℕ} {fuel ufuel : ℕ} {F : List (PV Mono ℤ)} {draws rest : List ℕ}

theorem run_inv {α β : Type} {m : Run α} {f : α → Run β} {s : List ℕ} {r : β × List ℕ} (h : Run.bind m f s = some r) : ∃ a s', m s = some (a, s') ∧ f a s' = some r := by
  unfold Run.bind at h
  cases hm : m s with
  | none => rw [hm] at h; cases h
  | some x => rw [hm] at h; exact ⟨x.1, x.2, rfl, h⟩

theorem one_var (M : MonoOrd vc' mc') (hF : ∀ f ∈ F, RealRootArg vc' mc' f) (h : ¬ 1 < (varsOf F).card) : ∃ v : Var, v ≠ 0 ∧ ∀ f ∈ F, (val f).vars ⊆ {v} := by
  have key : ∀ f ∈ F, ∀ w ∈ (val f).vars, w ∈ varsOf F := fun f hf w hw => mem_varsOf.2 ⟨f, hf, by rw [polyVars_eq M (hF f hf).ok]; exact hw⟩
  by_cases h0 : varsOf F = ∅
  · refine ⟨1, by decide, fun f hf w hw => ?_⟩
    have := key f hf w hw
    rw [h0] at this; simp at this
  · obtain ⟨v, hv⟩ := Finset.nonempty_of_ne_empty h0
    obtain ⟨f, hf, hvf⟩ := mem_varsOf.1 hv
    rw [polyVars_eq M (hF f hf).ok] at hvf
    refine ⟨v, fun e => (hF f hf).null (e ▸ hvf), fun g hg w hw => ?_⟩
    have hc : (varsOf F).card ≤ 1 := by omega
    rw [Finset.mem_singleton]
    exact Finset.card_le_one.1 hc _ (key g hg w hw) _ hv

theorem basis_ok (ho : VarOrd vc) (ho' : VarOrd vc') (M : MonoOrd vc' mc') (hprev : Upoly.PrevOK prev) (hF : ∀ f ∈ F, RealRootArg vc' mc' f) {v : Var} (v0 : v ≠ 0) (hv : ∀ f ∈ F, (val f).vars ⊆ {v})
    {B : List BElem} (h : squarefreeBasisAny vc false prev fuel vc' mc' F draws = some (B, rest)) : BasisOK vc' mc' F B := by
  have hS : Small {v} (2 ^ 63 - 2) := ⟨by simpa using v0.symm, by simp [capLex], by norm_num⟩
  have hop : ∀ f ∈ F, MgOperand vc' mc' {v} (2 ^ 63 - 2) f := fun f hf => ⟨(hF f hf).ok, hv f hf, fun w => by have := (hF f hf).deg w; omega⟩
  obtain ⟨_, b1, b2, b3⟩ := C62_squarefreebasis_partial ho M hS hprev (tame_one (by simp) hprev) hop h
  refine ⟨fun b hb => Factor.polyToUpoly_spec ho' M (b1 b hb).1.ok (b1 b hb).1.vars, fun b hb => ?_, fun b hb => squarefree_rat (ret_squarefree (b1 b hb).1.vars (b1 b hb).2.1), ?_, fun b hb => ?_, fun k hk h0 => ?_⟩
  · have := Factor.ret_natDegree v (b1 b hb).1.vars ((b1 b hb).1.deg v)
    omega
  · refine b2.imp_of_mem fun {a b} ha hb hab => ?_
    have hsa := ret_squarefree (b1 a ha).1.vars (b1 a ha).2.1
    exact coprime_rat hsa.ne_zero (ret_relPrime (b1 a ha).1.vars (b1 b hb).1.vars hab)
  · obtain ⟨_, _, r1, r2, r3⟩ := b1 b hb
    refine ⟨r1, r2, fun x hx => ⟨(r3 x hx).1, ?_⟩⟩
    obtain ⟨hk, h0⟩ := (r3 x hx).2
    exact ⟨hk, uni_ne (hv _ (List.getElem_mem hk)) h0⟩
  · have h0' : val F[k] ≠ 0 := fun e => h0 (by rw [e]; simp [uni])
    obtain ⟨c, hc⟩ := b3 k hk h0'
    have e : uni (val F[k]) = Polynomial.C (c : ℝ) * (B.map fun b => uni (val b.1) ^ multOf k b.2).prod := by
      rw [hc, uni, map_mul, map_list_prod, List.map_map]
      congr 1
      · rw [MvPolynomial.aeval_C]; simp
      · refine congrArg List.prod (List.map_congr_left fun b _ => ?_)
        show MvPolynomial.aeval _ (val b.1 ^ _) = _
        rw [map_pow]; rfl
    refine ⟨c, fun c0 => h0 ?_, e⟩
    rw [e, c0, Polynomial.C_0, zero_mul]

/-- an answer of `realroot(F)` lists every real root of the nonzero polynomials of `F` exactly once, in increasing order, as objects of class `uroot`, each with the polynomials that vanish there
and the multiplicities -/
theorem C98_realroot (ho : VarOrd vc) (ho' : VarOrd vc') (M : MonoOrd vc' mc') (hprev : Upoly.PrevOK prev) (hF : ∀ f ∈ F, RealRootArg vc' mc' f) {R : List URoot} {I : List (List (ℕ × ℕ))}
    (h : realRoot vc prev fuel ufuel vc' mc' F draws = some (some (R, I), rest)) :
    ∃ xs : List ℝ, List.Forall₂ (fun (r : URoot) (x : ℝ) => Den r (x : EReal)) R xs ∧ RootList (F.map fun f => uni (val f)) xs I := by
  unfold realRoot at h
  by_cases h0 : F = []
  · rw [if_pos h0] at h
    cases h
    subst h0
    exact ⟨[], .nil, .nil, by simp, .nil⟩
  rw [if_neg h0] at h
  by_cases h1 : 1 < (varsOf F).card
  · rw [if_pos h1] at h; cases h
  rw [if_neg h1] at h
  obtain ⟨v, v0, hv⟩ := one_var M hF h1
  obtain ⟨B, s, hB, h⟩ := run_inv h
  obtain ⟨l, s', hl, h⟩ := run_inv h
  have hl' : Upoly.uspenskyM ufuel (B.map fun b => Factor.polyToUpoly b.1) = some l := by
    cases hu : Upoly.uspenskyM ufuel (B.map fun b => Factor.polyToUpoly b.1) with
    | none => rw [hu] at hl; cases hl
    | some a => rw [hu] at hl; cases hl; rfl
  cases h
  exact rootList_of (basis_ok ho ho' M hprev hF v0 hv hB) hl'

/-- it throws exactly when two different variables occur; the empty list has the empty answer -/
theorem C98_throws (M : MonoOrd vc' mc') (hF : ∀ f ∈ F, PolyOK vc' mc' f) :
    ((∃ f ∈ F, ∃ g ∈ F, ∃ v ∈ (val f).vars, ∃ w ∈ (val g).vars, v ≠ w) → realRoot vc prev fuel ufuel vc' mc' F draws = some (none, draws)) ∧
      ((∃ r, realRoot vc prev fuel ufuel vc' mc' F draws = some (none, r)) → ∃ f ∈ F, ∃ g ∈ F, ∃ v ∈ (val f).vars, ∃ w ∈ (val g).vars, v ≠ w) ∧
      realRoot vc prev fuel ufuel vc' mc' [] draws = some (some ([], []), draws) := by
  have key : ∀ f ∈ F, ∀ w, w ∈ polyVars f ↔ w ∈ (val f).vars := fun f hf w => by rw [polyVars_eq M (hF f hf)]
  refine ⟨?_, ?_, rfl⟩
  · rintro ⟨f, hf, g, hg, v, hv, w, hw, hne⟩
    have h0 : F ≠ [] := by rintro rfl; simp at hf
    have h1 : 1 < (varsOf F).card := Finset.one_lt_card.2 ⟨v, mem_varsOf.2 ⟨f, hf, (key f hf v).2 hv⟩, w, mem_varsOf.2 ⟨g, hg, (key g hg w).2 hw⟩, hne⟩
    unfold realRoot
    rw [if_neg h0, if_pos h1]; rfl
  · rintro ⟨r, h⟩
    unfold realRoot at h
    by_cases h0 : F = []
    · rw [if_pos h0] at h; cases h
    rw [if_neg h0] at h
    by_cases h1 : 1 < (varsOf F).card
    · obtain ⟨v, hv, w, hw, hne⟩ := Finset.one_lt_card.1 h1
      obtain ⟨f, hf, hvf⟩ := mem_varsOf.1 hv
      obtain ⟨g, hg, hwg⟩ := mem_varsOf.1 hw
      exact ⟨f, hf, g, hg, v, (key f hf v).1 hvf, w, (key g hg w).1 hwg, hne⟩
    · rw [if_neg h1] at h
      obtain ⟨B, s, hB, h⟩ := run_inv h
      obtain ⟨l, s', hl, h⟩ := run_inv h
      cases h

/-- it answers for polynomials in one variable whenever `squarefreebasis` does: the bisection terminates -/
theorem C98_returns (ho : VarOrd vc) (ho' : VarOrd vc') (M : MonoOrd vc' mc') (hprev : Upoly.PrevOK prev) (hF : ∀ f ∈ F, RealRootArg vc' mc' f) (hv : ∃ v, ∀ f ∈ F, (val f).vars ⊆ {v}) {B : List BElem}
    (h : squarefreeBasisAny vc false prev fuel vc' mc' F draws = some (B, rest)) :
    ∃ N, ∀ ufuel, N ≤ ufuel → ∃ R rest', realRoot vc prev fuel ufuel vc' mc' F draws = some (some R, rest') := by
  by_cases h0 : F = []
  · exact ⟨0, fun u _ => ⟨_, _, by unfold realRoot; rw [if_pos h0]; rfl⟩⟩
  have h1 : ¬ 1 < (varsOf F).card := by
    obtain ⟨v, hv⟩ := hv
    rw [not_lt, Finset.card_le_one]
    have : ∀ a ∈ varsOf F, a = v := fun a ha => by
      obtain ⟨f, hf, haf⟩ := mem_varsOf.1 ha
      rw [polyVars_eq M (hF f hf).ok] at haf
      exact Finset.mem_singleton.1 (hv f hf haf)
    intro a ha b hb
    rw [this a ha, this b hb]
  obtain ⟨v, v0, hv'⟩ := one_var M hF h1
  have hB := basis_ok ho ho' M hprev hF v0 hv' h
  have tp : ∀ b ∈ B, Upoly.toPoly (Factor.polyToUpoly b.1) = Factor.ret (val b.1) := fun b hb => (hB.is b hb).eq
  obtain ⟨N, hN⟩ := C36_uspensky_list_returns (gs := B.map fun b => Factor.polyToUpoly b.1)
    (fun g hg => by obtain ⟨b, hb, rfl⟩ := List.mem_map.1 hg; rw [tp b hb]; exact hB.is b hb)
    (by
      rw [List.pairwise_map]
      refine hB.cop.imp_of_mem fun {a b} ha hb hab => ?_
      rw [tp a ha, tp b hb]; exact hab)
    (fun g hg => by obtain ⟨b, hb, rfl⟩ := List.mem_map.1 hg; rw [tp b hb]; exact hB.sqf b hb)
  refine ⟨N, fun u hu => ?_⟩
  obtain ⟨l, hl⟩ := hN u hu
  refine ⟨(l.map fun e => URoot.mk' ((B.map fun b => Factor.polyToUpoly b.1).getD e.1 []) e.2.1 e.2.2, l.map fun e => (B.map fun b => b.2).getD e.1 []), rest, ?_⟩
  unfold realRoot
  rw [if_neg h0, if_neg h1, run_bind_some h]
  rw [run_bind_some (show Run.lift (Upoly.uspenskyM u (B.map fun b => Factor.polyToUpoly b.1)) rest = some (l, rest) by unfold Run.lift; rw [hl]; rfl)]
  rfl

/-! ## a concrete case: `x²`, `0`, `3 x⁵`, `7`, `−3x − 1` -/

theorem realRootArg_of {vc : Var → Var → Bool} {mc : Mono → Mono → Bool} (M : MonoOrd vc mc) {p : PV Mono ℤ} (hp : PolyOK vc mc p) {N : ℕ} (hN : N < 2 ^ 63 - 1) {V : Finset Var} (hV : 0 ∉ V)
    (h : ∀ t ∈ p, ∀ x ∈ t.1.data, x.1 ∈ V ∧ x.2 ≤ N) : RealRootArg vc mc p := by
  have := MgOperand.of_list (V := V) (N := N) M hp h
  exact ⟨this.ok, fun h0 => hV (this.vars h0), fun w => lt_of_le_of_lt (this.deg w) hN⟩

set_option maxRecDepth 100000 in
set_option synthInstance.maxSize 1000 in
example : realRoot varLess mgPrev 9 9 varLess (lexGt varLess) [[(exXY 2 0, 1)], [], [(exXY 5 0, 3)], [(exXY 0 0, 7)], [(exXY 1 0, -3), (exXY 0 0, -1)]] [] =
    some (some ([⟨0, [(1, -3), (0, -1)], -1/2, -1/4⟩, ⟨0, [(1, 1)], 0, 0⟩], [[(4, 1)], [(0, 2), (2, 5)]]), []) := by decide +kernel

example : ∀ f ∈ ([[(exXY 2 0, 1)], [], [(exXY 5 0, 3)], [(exXY 0 0, 7)], [(exXY 1 0, -3), (exXY 0 0, -1)]] : List (PV Mono ℤ)), RealRootArg varLess (lexGt varLess) f := by
  have key : ∀ f ∈ ([[(exXY 2 0, 1)], [], [(exXY 5 0, 3)], [(exXY 0 0, 7)], [(exXY 1 0, -3), (exXY 0 0, -1)]] : List (PV Mono ℤ)),
      PolyOK varLess (lexGt varLess) f ∧ ∀ t ∈ f, ∀ x ∈ t.1.data, x.1 ∈ ({1} : Finset Var) ∧ x.2 ≤ (9 : ℕ) := by decide +kernel
  exact fun f hf => realRootArg_of (lex_ord varLess_ord) (key f hf).1 (N := 9) (by norm_num) (V := {1}) (by decide) (key f hf).2

end CLPoly
