import Verif.Wang.MonoContent
import Verif.Factor.Wrap

/-! # The product of the factors found by `factorize` for polynomials in several variables -/

namespace CLPoly
namespace Wang
open Mono Mgcd Run Upoly Factor MvPolynomial

section
variable {vc : Var → Var → Bool} {mc : Mono → Mono → Bool} {ex : Prop}

/-- the product of a list of factors with multiplicities -/
noncomputable def facProd (l : List (PV Mono ℤ × ℕ)) : MvPolynomial Var ℤ := (l.map fun x => val x.1 ^ x.2).prod

theorem facProd_append (l m : List (PV Mono ℤ × ℕ)) : facProd (l ++ m) = facProd l * facProd m := by simp [facProd]
theorem facProd_cons (x : PV Mono ℤ × ℕ) (l : List (PV Mono ℤ × ℕ)) : facProd (x :: l) = val x.1 ^ x.2 * facProd l := by simp [facProd]
theorem facProd_nil : facProd [] = 1 := rfl
theorem facProd_perm {l m : List (PV Mono ℤ × ℕ)} (h : l.Perm m) : facProd l = facProd m := (h.map _).prod_eq

/-- a factorization, exact if `ex` holds and up to sign otherwise -/
structure FacX (ex : Prop) (vc : Var → Var → Bool) (mc : Mono → Mono → Bool) (F : MvPolynomial Var ℤ) (c : ℤ) (l : List (PV Mono ℤ × ℕ)) : Prop where
  ok : ∀ x ∈ l, PolyOK vc mc x.1
  nonconst : ∀ x ∈ l, ∀ z : ℤ, val x.1 ≠ C z
  pos : ∀ x ∈ l, 0 < x.2
  prim : ∀ x ∈ l, ∀ z : ℤ, (C z : MvPolynomial Var ℤ) ∣ val x.1 → IsUnit z
  prod : C c * facProd l = F ∨ (¬ ex ∧ C c * facProd l = -F)

theorem FacX.out {F : MvPolynomial Var ℤ} {c : ℤ} {l : List (PV Mono ℤ × ℕ)} (h : FacX ex vc mc F c l) : FacOut vc mc F c l :=
  ⟨h.ok, h.nonconst, h.pos, h.prim, h.prod.imp id And.right⟩

theorem FacX.exact {F : MvPolynomial Var ℤ} {c : ℤ} {l : List (PV Mono ℤ × ℕ)} (h : FacX ex vc mc F c l) (hex : ex) : C c * facProd l = F := h.prod.resolve_right fun e => e.1 hex

theorem FacX.mul {F G : MvPolynomial Var ℤ} {c d : ℤ} {l m : List (PV Mono ℤ × ℕ)} (h : FacX ex vc mc F c l) (k : FacX ex vc mc G d m) : FacX ex vc mc (F * G) (c * d) (l ++ m) := by
  refine ⟨fun x hx => ?_, fun x hx => ?_, fun x hx => ?_, fun x hx => ?_, ?_⟩
  · rcases List.mem_append.1 hx with hx | hx
    · exact h.ok x hx
    · exact k.ok x hx
  · rcases List.mem_append.1 hx with hx | hx
    · exact h.nonconst x hx
    · exact k.nonconst x hx
  · rcases List.mem_append.1 hx with hx | hx
    · exact h.pos x hx
    · exact k.pos x hx
  · rcases List.mem_append.1 hx with hx | hx
    · exact h.prim x hx
    · exact k.prim x hx
  · rw [facProd_append, C_mul, mul_mul_mul_comm]
    rcases h.prod with e | ⟨e0, e⟩ <;> rcases k.prod with e' | ⟨e0', e'⟩ <;> rw [e, e']
    · exact .inl rfl
    · exact .inr ⟨e0', by ring⟩
    · exact .inr ⟨e0, by ring⟩
    · exact .inl (by ring)

/-- the multiplicities times `k` -/
def times (k : ℕ) (l : List (PV Mono ℤ × ℕ)) : List (PV Mono ℤ × ℕ) := l.map fun x => (x.1, x.2 * k)

theorem facProd_times (k : ℕ) (l : List (PV Mono ℤ × ℕ)) : facProd (times k l) = facProd l ^ k := by
  induction l with
  | nil => simp [times, facProd]
  | cons x l ih =>
    rw [show times k (x :: l) = (x.1, x.2 * k) :: times k l from rfl, facProd_cons, facProd_cons, ih, mul_pow, pow_mul]

theorem FacX.pow {F : MvPolynomial Var ℤ} {c : ℤ} {l : List (PV Mono ℤ × ℕ)} (h : FacX ex vc mc F c l) {k : ℕ} (hk : 0 < k) : FacX ex vc mc (F ^ k) (c ^ k) (times k l) := by
  refine ⟨fun x hx => ?_, fun x hx => ?_, fun x hx => ?_, fun x hx => ?_, ?_⟩
  · obtain ⟨y, hy, rfl⟩ := List.mem_map.1 hx; exact h.ok y hy
  · obtain ⟨y, hy, rfl⟩ := List.mem_map.1 hx; exact h.nonconst y hy
  · obtain ⟨y, hy, rfl⟩ := List.mem_map.1 hx; exact Nat.mul_pos (h.pos y hy) hk
  · obtain ⟨y, hy, rfl⟩ := List.mem_map.1 hx; exact h.prim y hy
  · rw [facProd_times, C_pow, ← mul_pow]
    rcases h.prod with e | ⟨e0, e⟩ <;> rw [e]
    · exact .inl rfl
    · rcases Nat.even_or_odd k with hk | hk
      · exact .inl (hk.neg_pow F)
      · exact .inr ⟨e0, hk.neg_pow F⟩

theorem FacX.nil (c : ℤ) : FacX ex vc mc (C c) c [] := ⟨by simp, by simp, by simp, by simp, .inl (by rw [facProd_nil, mul_one])⟩

theorem unit_const {f : MvPolynomial Var ℤ} (h : IsUnit f) : ∃ z : ℤ, f = C z := by
  rcases unit_pm h with e | e
  · exact ⟨1, by rw [e, C_1]⟩
  · exact ⟨-1, by rw [e, C_neg, C_1]⟩

/-- the factors of a squarefree polynomial have multiplicity 1, are squarefree and pairwise coprime -/
theorem FacX.sqf {F : MvPolynomial Var ℤ} {c : ℤ} {l : List (PV Mono ℤ × ℕ)} (h : FacX ex vc mc F c l) (hF : Squarefree F) :
    (∀ x ∈ l, x.2 = 1 ∧ Squarefree (val x.1) ∧ val x.1 ∣ F) ∧ l.Pairwise fun a b => IsRelPrime (val a.1) (val b.1) := by
  have hd : facProd l ∣ F := by
    rcases h.prod with e | ⟨_, e⟩
    · exact ⟨C c, by rw [← e, mul_comm]⟩
    · exact ⟨-C c, by rw [mul_neg, mul_comm, e, neg_neg]⟩
  refine ⟨fun x hx => ?_, ?_⟩
  · have h1 : val x.1 ^ x.2 ∣ F := (List.dvd_prod (List.mem_map_of_mem (f := fun x : PV Mono ℤ × ℕ => val x.1 ^ x.2) hx)).trans hd
    have h2 : val x.1 ∣ F := (dvd_pow_self _ (h.pos x hx).ne').trans h1
    refine ⟨?_, hF.squarefree_of_dvd h2, h2⟩
    by_contra hc
    have h3 : val x.1 * val x.1 ∣ F := by
      rw [← pow_two]
      exact (pow_dvd_pow _ (by have := h.pos x hx; omega)).trans h1
    obtain ⟨z, hz⟩ := unit_const (hF _ h3)
    exact h.nonconst x hx z hz
  · have hpos := h.pos
    clear h
    induction l with
    | nil => exact List.Pairwise.nil
    | cons x l ih =>
      rw [facProd_cons] at hd
      refine List.pairwise_cons.2 ⟨fun y hy d d1 d2 => hF d ?_, ih ((dvd_mul_left _ _).trans hd) fun y hy => hpos y (by simp [hy])⟩
      have e2 : d ∣ facProd l := (d2.trans (dvd_pow_self _ (hpos y (by simp [hy])).ne')).trans (List.dvd_prod (List.mem_map_of_mem (f := fun x : PV Mono ℤ × ℕ => val x.1 ^ x.2) hy))
      exact (mul_dvd_mul (d1.trans (dvd_pow_self _ (hpos x (by simp)).ne')) e2).trans hd

/-- the contract of the univariate factorization: exact if `ex` holds -/
def UniOK (ex : Prop) (N : ℕ) (uni : UPoly ℤ → Run (ℤ × List (UPoly ℤ × ℕ))) : Prop := ∀ f F, Is f F → F.natDegree ≤ N → Post (uni f) fun r =>
  (Polynomial.C r.1 * powProd r.2 = F ∨ (¬ ex ∧ Polynomial.C r.1 * powProd r.2 = -F)) ∧
    ∀ x ∈ r.2, Canon Upoly.comp x.1 ∧ (toPoly x.1).IsPrimitive ∧ 0 < (toPoly x.1).natDegree ∧ x.2 ≠ 0

theorem facX_uni (ho : VarOrd vc) (v : Var) {f : MvPolynomial Var ℤ} (hv : f.vars ⊆ {v}) {c : ℤ} {l : List (UPoly ℤ × ℕ)}
    (h : Polynomial.C c * powProd l = Factor.ret f ∨ (¬ ex ∧ Polynomial.C c * powProd l = -Factor.ret f))
    (hl : ∀ x ∈ l, Canon Upoly.comp x.1 ∧ (toPoly x.1).IsPrimitive ∧ 0 < (toPoly x.1).natDegree ∧ x.2 ≠ 0) : FacX ex vc (lexGt vc) f c (l.map fun x => (upolyToPoly v x.1, x.2)) := by
  have hA : Associated (Polynomial.C c * powProd l) (Factor.ret f) := by
    rcases h with e | ⟨_, e⟩ <;> rw [e]
    exact (Associated.refl _).neg_left
  obtain ⟨a, b, d, e, _⟩ := upolyFactors ho v hv hA hl
  refine ⟨a, b, d, e, ?_⟩
  have hprod : ∀ l : List (UPoly ℤ × ℕ), (∀ x ∈ l, val (upolyToPoly v x.1) = emb v (toPoly x.1)) → facProd (l.map fun x => (upolyToPoly v x.1, x.2)) = emb v (powProd l) := by
    intro l
    induction l with
    | nil => intro _; simp [powProd, facProd]
    | cons x l ih =>
      intro h
      have i := ih fun y hy => h y (by simp [hy])
      have e : powProd (x :: l) = toPoly x.1 ^ x.2 * powProd l := by simp [powProd]
      rw [List.map_cons, facProd_cons, i, e, map_mul, map_pow]
      dsimp only
      rw [h x (by simp)]
  rw [hprod l fun x hx => (upolyToPoly_spec ho v (is_of_canon (hl x hx).1)).2, ← emb_C v, ← map_mul]
  rcases h with e | ⟨e0, e⟩
  · exact .inl (by rw [e, emb_ret hv])
  · exact .inr ⟨e0, by rw [e, map_neg, emb_ret hv]⟩

theorem number_val (ho : VarOrd vc) {g : PV Mono ℤ} (hg : LP vc g) (hn : isNumber g = true) : val g = C (constVal g) := by
  match g, hg, hn with
  | [], _, _ => simp [val_nil, constVal]
  | [t], hg, hn =>
    have hm : t.1.data = [] := by simpa [isNumber] using hn
    rw [val_cons, val_nil, add_zero]
    have h1 : expo t.1 = 0 := by
      ext w
      have := (hg.monos t (by simp)).expo_eq w
      rw [hm] at this
      simpa [E] using this
    have h2 : constVal [t] = t.2 := by simp [constVal, hm]
    rw [h1, h2]; rfl
  | t :: u :: r, _, hn => simp [isNumber] at hn

variable {V : Finset Var} {N : ℕ} (ho : VarOrd vc) {E : Env} (hE : E.vc = vc) (hS : Small V N) (hU : UniOK ex N E.uni)

include ho hS hU in
/-- `factorize(polynomial_<ZZ,lex_>)` up to the case of several variables -/
theorem facLex_spec {multi : PV Mono ℤ → Run (ℤ × List (PV Mono ℤ × ℕ))} {F : PV Mono ℤ} (hF : In vc V N F)
    (hmulti : 1 < (val F).vars.card → Post (multi F) fun r => FacX ex vc (lexGt vc) (val F) r.1 r.2) : Post (facLex E multi F) fun r => FacX ex vc (lexGt vc) (val F) r.1 r.2 := by
  have M := lex_ord ho
  match F, hF with
  | [], hF =>
    refine Post.ret ?_
    have := FacX.nil (ex := ex) (vc := vc) (mc := lexGt vc) 0
    rwa [C_0] at this
  | t :: F', hF =>
    obtain ⟨F, e⟩ : ∃ F, F = t :: F' := ⟨_, rfl⟩
    unfold facLex
    dsimp only
    rw [← e] at hF hmulti ⊢
    refine Post.ite (fun hn => Post.ret ?_) fun hn => Post.ite (fun h1 => hmulti (by rwa [polyVars_eq M hF.ok] at h1)) fun h1 => ?_
    · have h1 := number_val ho hF.ok hn
      have h2 : constVal F = t.2 := by
        rw [e] at hn ⊢
        cases F' with
        | nil =>
          have hm : t.1.data = [] := by simpa [isNumber] using hn
          simp [constVal, hm]
        | cons a b => simp [isNumber] at hn
      rw [h1, h2]
      exact FacX.nil _
    · rw [polyVars_eq M hF.ok] at h1
      have hn' : (val F).vars ≠ ∅ := fun h => hn ((number_of_vars ho hF.ok).2 h)
      have hfv : pFirstVar F ≠ 0 := fun h => hn' ((first_zero ho hF.ok (hF.zero hS)).1 h)
      obtain ⟨f1, f2, _⟩ := first_spec ho hF.ok hfv
      have hmem : pFirstVar F ∈ (val F).vars := by
        by_contra hc
        rw [degreeOf_zero_iff.2 hc] at f2
        exact absurd f2 (by omega)
      have hv : (val F).vars ⊆ {pFirstVar F} := fun w hw => by
        rw [Finset.mem_singleton]
        exact Finset.card_le_one.1 (by omega) w hw _ hmem
      exact (hU _ _ (polyToUpoly_spec ho M hF.ok hv) (ret_natDegree _ hv (hF.deg _))).bind fun r hr => Post.ret (facX_uni ho _ hv hr.1 hr.2)

/-- what is added for the entry `(g, k)` of the squarefree decomposition -/
def Added (ex : Prop) (vc : Var → Var → Bool) (g : PV Mono ℤ) (k : ℕ) (s s' : ℤ × List (PV Mono ℤ × ℕ)) : Prop :=
  ∃ c l, FacX ex vc (lexGt vc) (val g) c l ∧ s' = (s.1 * c ^ k, s.2 ++ times k l)

include ho hS hU in
theorem addUni_spec {g : PV Mono ℤ} (hg : In vc V N g) (hc : (val g).vars.card ≤ 1) (k : ℕ) (s : ℤ × List (PV Mono ℤ × ℕ)) : Post (addUni E k g s) (Added ex vc g k s) := by
  unfold addUni
  exact (facLex_spec ho hS hU hg fun h => absurd h (by omega)).bind fun r hr => Post.ret ⟨r.1, r.2, hr, rfl⟩

variable (hprev : PrevOK E.prev) (hT : Tame E.strict V N E.prev) (hL : LiftFits E vc V N) {facL : PV Mono ℤ → Run (ℤ × List (PV Mono ℤ × ℕ))}

theorem facX_powers (ho : VarOrd vc) : ∀ {md : List (Var × ℤ)}, Powers vc md →
    FacX ex vc (lexGt vc) ((md.map fun x => (X x.1 : MvPolynomial Var ℤ) ^ x.2.toNat).prod) 1 (md.map fun x => ([(⟨[(x.1, 1)], 1⟩, 1)], x.2.toNat)) := by
  have M := lex_ord ho
  intro md h
  have hX : ∀ v : Var, LP vc [((⟨[(v, 1)], 1⟩ : Mono), (1 : ℤ))] ∧ val [((⟨[(v, 1)], 1⟩ : Mono), (1 : ℤ))] = X v := fun v => by
    refine ⟨PolyOK.single ⟨by simp, by simp, by simp⟩ one_ne_zero, ?_⟩
    rw [val_cons, val_nil, add_zero]
    simp [expo, X]
  refine ⟨fun y hy => ?_, fun y hy z hz => ?_, fun y hy => ?_, fun y hy z hz => ?_, .inl ?_⟩
  · obtain ⟨x, hx, rfl⟩ := List.mem_map.1 hy; exact (hX x.1).1
  · obtain ⟨x, hx, rfl⟩ := List.mem_map.1 hy
    dsimp only at hz
    rw [(hX x.1).2] at hz
    have h1 := congrArg (fun f => (f : MvPolynomial Var ℤ).vars) hz
    simp only [vars_X, vars_C] at h1
    exact Finset.singleton_ne_empty _ h1
  · obtain ⟨x, hx, rfl⟩ := List.mem_map.1 hy
    have := h.pos x hx
    dsimp only
    omega
  · obtain ⟨x, hx, rfl⟩ := List.mem_map.1 hy
    dsimp only at hz
    rw [(hX x.1).2, C_dvd_iff_dvd_coeff] at hz
    have := hz (Finsupp.single x.1 1)
    rw [coeff_X, if_pos rfl] at this
    exact isUnit_of_dvd_one this
  · rw [C_1, one_mul, facProd, List.map_map]
    congr 1
    refine List.map_congr_left fun x _ => ?_
    simp only [Function.comp_apply, (hX x.1).2]

theorem facX_core (ho : VarOrd vc) {x : Var} {G : MvPolynomial Var ℤ} (hG : Prm vc x G) {l : List (PV Mono ℤ)} (h : CoreOut vc V N G l) : FacX ex vc (lexGt vc) G 1 (l.map fun h => (h, 1)) := by
  have M := lex_ord ho
  refine ⟨fun y hy => ?_, fun y hy z hz => ?_, fun y hy => ?_, fun y hy z hz => ?_, .inl ?_⟩
  · obtain ⟨a, ha, rfl⟩ := List.mem_map.1 hy; exact (h.fac a ha).1.ok
  · obtain ⟨a, ha, rfl⟩ := List.mem_map.1 hy
    have := (isNumber_iff M (h.fac a ha).1.ok).2 ⟨z, hz⟩
    rw [(h.fac a ha).2.2] at this
    exact absurd this (by simp)
  · obtain ⟨a, ha, rfl⟩ := List.mem_map.1 hy; exact Nat.one_pos
  · obtain ⟨a, ha, rfl⟩ := List.mem_map.1 hy
    have hd : val a ∣ G := by rw [← h.prod]; exact List.dvd_prod (List.mem_map_of_mem ha)
    have := hG.prim (C z) (by rw [vars_C]; simp) (hz.trans hd)
    rcases unit_pm this with e | e
    · rw [← C_1] at e; rw [C_injective _ _ e]; exact isUnit_one
    · rw [← C_1, ← C_neg] at e; rw [C_injective _ _ e]; exact isUnit_one.neg
  · rw [C_1, one_mul, ← h.prod, facProd, List.map_map]
    congr 1
    exact List.map_congr_left fun a _ => by simp

include ho hE hS hU hprev hT hL in
theorem addPart_spec {g : PV Mono ℤ} (hg : In vc V N g) (hp : isNumber g = false → ∃ x, Prm vc x (val g)) (k : ℕ) (s : ℤ × List (PV Mono ℤ × ℕ)) :
    Post (addPart E facL g k s) (Added ex vc g k s) := by
  have M := lex_ord ho
  unfold addPart
  refine Post.ite (fun hn => Post.ret ⟨constVal g, [], ?_, by simp [times]⟩) fun hn => ?_
  · rw [number_val ho hg.ok hn]; exact FacX.nil _
  obtain ⟨x, hx⟩ := hp (by simpa using hn)
  refine Post.ite (fun h1 => addUni_spec ho hS hU hg (by rwa [polyVars_eq M hg.ok] at h1) k s) fun _ => ?_
  dsimp only
  rw [hE]
  obtain ⟨m1, m2, m3⟩ := extractMono_spec ho hg.ok
  obtain ⟨e, he⟩ : ∃ e, e = extractMono vc g := ⟨_, rfl⟩
  rw [← he] at m1 m2 m3 ⊢
  have hd : val e.1 ∣ val g := ⟨_, by rw [m3, mul_comm]⟩
  have he1 : In vc V N e.1 := hg.of_dvd hx.prim.ne_zero m1 hd
  have hmono : FacX ex vc (lexGt vc) ((e.2.map fun x => (X x.1 : MvPolynomial Var ℤ) ^ x.2.toNat).prod) 1 (e.2.map fun x => ([(⟨[(x.1, 1)], 1⟩, 1)], x.2.toNat)) := facX_powers ho m2
  -- the powers of the variables and the rest
  have comb : ∀ s', Added ex vc e.1 k (s.1, s.2 ++ e.2.map fun x => ([(⟨[(x.1, 1)], 1⟩, 1)], x.2.toNat * k)) s' → Added ex vc g k s s' := by
    rintro _ ⟨c, l, h, rfl⟩
    refine ⟨1 * c, _, m3 ▸ hmono.mul h, ?_⟩
    dsimp only
    rw [one_mul, List.append_assoc]
    congr 2
    simp [times]
  refine Post.ite (fun h1 => (addUni_spec ho hS hU he1 (by rwa [polyVars_eq M m1] at h1) k _).mono comb) fun h1 => ?_
  have hx1 := hx.of_dvd hd
  obtain ⟨q1, q2, q3⟩ := makePos_spec m1
  have e0 : e.1 ≠ [] := fun h => hx1.prim.ne_zero (by rw [h, val_nil])
  have qd : val (makePos e.1) ∣ val e.1 := by rcases q2 with q | q <;> rw [q]; exact (neg_dvd).2 dvd_rfl
  have hx2 := hx1.of_dvd qd
  have hn2 : isNumber (makePos e.1) = false := by
    by_contra hc
    rw [Bool.not_eq_false, number_of_vars ho q1] at hc
    rw [polyVars_eq M m1] at h1
    have : (val e.1).vars = ∅ := by
      rcases q2 with q | q <;> rw [q] at hc
      · exact hc
      · rwa [vars_neg] at hc
    rw [this] at h1
    simp at h1
  refine (wangCore_spec ho hE hS hprev hT hL (he1.of_dvd hx1.prim.ne_zero q1 qd) (q3 e0) hx2 hn2).bind fun fs hfs => Post.ret (comb _ ?_)
  have hcore := facX_core (ex := ex) ho hx2 hfs
  have hs := makePos_sign e.1
  have hneg := hcore.mul (FacX.nil (if (e.1.headD (Mono.one, 0)).2 < 0 then -1 else 1))
  rw [mul_comm (val (makePos e.1)), ← hs, one_mul, List.append_nil] at hneg
  refine ⟨_, _, hneg, ?_⟩
  dsimp only
  congr 1
  · by_cases hh : (e.1.headD (Mono.one, 0)).2 < 0
    · rw [if_pos hh]
      rcases Nat.even_or_odd k with hk | hk
      · rw [if_neg (fun h => by have := Nat.even_iff.1 hk; omega), hk.neg_one_pow, mul_one]
      · rw [if_pos ⟨hh, Nat.odd_iff.1 hk⟩, hk.neg_one_pow, mul_neg, mul_one]
    · rw [if_neg (fun h => hh h.1), if_neg hh, one_pow, mul_one]
  · congr 1
    simp [times]

/-- squarefree and pairwise coprime factors -/
structure Cop (l : List (PV Mono ℤ × ℕ)) : Prop where
  sqf : ∀ x ∈ l, Squarefree (val x.1)
  cop : l.Pairwise fun a b => IsRelPrime (val a.1) (val b.1)

/-- the entries of the squarefree decomposition -/
structure Parts (vc : Var → Var → Bool) (V : Finset Var) (N : ℕ) (t : List (PV Mono ℤ × ℕ)) : Prop where
  parts : ∀ x ∈ t, In vc V N x.1 ∧ 0 < x.2 ∧ Squarefree (val x.1) ∧ ∃ v, Prm vc v (val x.1)
  coprime : t.Pairwise fun a b => IsRelPrime (val a.1) (val b.1)

include ho hE hS hU hprev hT hL in
theorem addParts_spec : ∀ {t : List (PV Mono ℤ × ℕ)}, Parts vc V N t → ∀ s, Post (addParts E facL t s) fun s' =>
    ∃ c l, FacX ex vc (lexGt vc) (prodPow t) c l ∧ s' = (s.1 * c, s.2 ++ l) ∧ Cop l ∧ ∀ x ∈ l, ∃ y ∈ t, val x.1 ∣ val y.1 ∧ x.2 = y.2 := by
  intro t
  induction t with
  | nil =>
    intro _ s
    refine Post.ret ⟨1, [], ?_, by simp, ⟨by simp, List.Pairwise.nil⟩, by simp⟩
    have := FacX.nil (ex := ex) (vc := vc) (mc := lexGt vc) 1
    rwa [C_1] at this
  | cons y t ih =>
    intro h s
    unfold addParts
    obtain ⟨a1, a2, a3, a4⟩ := h.parts y (by simp)
    refine (addPart_spec ho hE hS hU hprev hT hL a1 (fun _ => a4) y.2 s).bind fun s1 hs1 => ?_
    obtain ⟨c, l, hl, rfl⟩ := hs1
    obtain ⟨hc1, hc2⟩ := List.pairwise_cons.1 h.coprime
    refine (ih ⟨fun x hx => h.parts x (by simp [hx]), hc2⟩ _).mono fun s2 hs2 => ?_
    obtain ⟨d, m, hm, rfl, hcop, hdv⟩ := hs2
    obtain ⟨q1, q2⟩ := hl.sqf a3
    have hdl : ∀ x ∈ times y.2 l, Squarefree (val x.1) ∧ val x.1 ∣ val y.1 ∧ x.2 = y.2 := fun x hx => by
      obtain ⟨z, hz, rfl⟩ := List.mem_map.1 hx
      exact ⟨(q1 z hz).2.1, (q1 z hz).2.2, by dsimp only; rw [(q1 z hz).1, one_mul]⟩
    refine ⟨c ^ y.2 * d, times y.2 l ++ m, ?_, by rw [mul_assoc, List.append_assoc], ⟨fun x hx => ?_, ?_⟩, fun x hx => ?_⟩
    · have := (hl.pow a2).mul hm
      rwa [show prodPow (y :: t) = val y.1 ^ y.2 * prodPow t by simp [prodPow]]
    · rcases List.mem_append.1 hx with hx | hx
      · exact (hdl x hx).1
      · exact hcop.sqf x hx
    · refine List.pairwise_append.2 ⟨?_, hcop.cop, fun x hx z hz => ?_⟩
      · unfold times
        rw [List.pairwise_map]
        exact q2
      · obtain ⟨w, hw, w1, _⟩ := hdv z hz
        exact fun e e1 e2 => hc1 w hw (e1.trans (hdl x hx).2.1) (e2.trans w1)
    · rcases List.mem_append.1 hx with hx | hx
      · exact ⟨y, by simp, (hdl x hx).2⟩
      · obtain ⟨w, hw, w1⟩ := hdv x hx
        exact ⟨w, by simp [hw], w1⟩

/-- the signs at the end -/
theorem fixSign_prod : ∀ (l : List (PV Mono ℤ × ℕ)) (c : ℤ), C (l.foldl fixSign c) * facProd (l.map fun x => (makePos x.1, x.2)) = C c * facProd l := by
  intro l
  induction l with
  | nil => intro c; rfl
  | cons x l ih =>
    intro c
    rw [List.foldl_cons, List.map_cons, facProd_cons, facProd_cons, mul_left_comm, ih]
    dsimp only
    have hs := makePos_sign x.1
    unfold fixSign
    by_cases hh : (x.1.headD (Mono.one, 0)).2 < 0
    · rw [if_pos hh] at hs
      rw [hs, mul_pow, ← C_pow]
      rcases Nat.even_or_odd x.2 with hk | hk
      · rw [if_neg (fun h => by have := Nat.even_iff.1 hk; omega), hk.neg_one_pow, C_1]; ring
      · rw [if_pos ⟨hh, by have := Nat.odd_iff.1 hk; omega⟩, hk.neg_one_pow, C_neg, C_neg, C_1]; ring
    · rw [if_neg hh, C_1, one_mul] at hs
      rw [if_neg (fun h => hh h.1), ← hs]; ring

/-- **the result of `__factor_multivar`** -/
structure MFac (ex : Prop) (vc : Var → Var → Bool) (F : MvPolynomial Var ℤ) (c : ℤ) (l : List (PV Mono ℤ × ℕ)) : Prop where
  fac : FacX ex vc (lexGt vc) F c l
  cop : Cop l
  pos : ∀ x ∈ l, Pos x.1

variable (hsort : ∀ l, (E.sort l).Perm l)

include ho hE hS hU hprev hT hL hsort in
theorem factorMulti_spec {f : PV Mono ℤ} (hf : In vc V N f) (h0 : f ≠ []) : Post (factorMulti E facL f) fun r => MFac ex vc (val f) r.1 r.2 := by
  have M := lex_ord ho
  unfold factorMulti
  rw [hE]
  refine (squarefreeFactorize_spec ho hS (gcdZ_spec' ho hS hprev hT E.fuel E.fuel) E.fuel E.fuel f hf).bind fun sqf hsqf => ?_
  rcases hsqf with ⟨e, _⟩ | ⟨_, c, t, rfl, ht⟩
  · exact absurd e h0
  refine Post.bind (P := fun s => ∃ l, FacX ex vc (lexGt vc) (val f) s.1 l ∧ s.2 = l ∧ Cop l) ?_ fun s hs => Post.ret ?_
  · unfold addParts
    refine (addPart_spec ho hE hS hU hprev hT hL (ex := ex) ht.inc (fun h => ?_) 1 (1, [])).bind fun s1 hs1 => ?_
    · rw [(number_of_vars ho ht.inc.ok).2 ht.const] at h; exact absurd h (by simp)
    · obtain ⟨d, l, hl, rfl⟩ := hs1
      have hl0 : l = [] := by
        by_contra hne
        obtain ⟨x, hx⟩ := List.exists_mem_of_ne_nil l hne
        have c0 : val c ≠ 0 := fun e => h0 ((hf.ok.val_eq_zero M).1 (by rw [ht.prod, e, zero_mul]))
        have hdv : val x.1 ∣ val c := by
          have h1 := (dvd_pow_self (val x.1) (hl.pos x hx).ne').trans (List.dvd_prod (List.mem_map_of_mem (f := fun x : PV Mono ℤ × ℕ => val x.1 ^ x.2) hx))
          rcases hl.prod with e | ⟨_, e⟩
          · rw [← e]; exact Dvd.dvd.mul_left h1 _
          · rw [← neg_neg (val c), ← e]; exact (dvd_neg).2 (Dvd.dvd.mul_left h1 _)
        have hv := vars_of_dvd hdv c0
        rw [ht.const] at hv
        have := (number_of_vars ho (hl.ok x hx)).2 (Finset.subset_empty.1 hv)
        obtain ⟨z, hz⟩ := (isNumber_iff M (hl.ok x hx)).1 this
        exact hl.nonconst x hx z hz
      subst hl0
      refine (addParts_spec ho hE hS hU hprev hT hL (ex := ex) (t := t) ⟨fun x hx => ?_, ht.coprime⟩ _).mono fun s2 hs2 => ?_
      · obtain ⟨b1, b2, b3, _⟩ := ht.parts x hx
        obtain ⟨v, v1, v2⟩ := ht.prm x hx
        exact ⟨b1, b2, b3, v, v1, v2⟩
      · obtain ⟨d', m, hm, rfl, hcop, _⟩ := hs2
        refine ⟨m, ?_, by simp [times], hcop⟩
        have := hl.mul hm
        rw [ht.prod]
        simpa using this
  · obtain ⟨l, hl, e, hcop⟩ := hs
    rw [e]
    have hperm := hsort (l.map fun x => (makePos x.1, x.2))
    have key : ∀ x ∈ E.sort (l.map fun x => (makePos x.1, x.2)), ∃ y ∈ l, x = (makePos y.1, y.2) := fun x hx => by
      obtain ⟨y, hy, rfl⟩ := List.mem_map.1 (hperm.subset hx)
      exact ⟨y, hy, rfl⟩
    have hval : ∀ y ∈ l, Associated (val (makePos y.1)) (val y.1) := fun y hy => by
      rcases (makePos_spec (hl.ok y hy)).2.1 with e | e <;> rw [e]
      exact (Associated.refl _).neg_left
    have h2 : (l.map fun x => (makePos x.1, x.2)).Pairwise fun a b => IsRelPrime (val a.1) (val b.1) := by
      rw [List.pairwise_map]
      exact hcop.cop.imp_of_mem fun {a b} ha hb hab d d1 d2 => hab (d1.trans (hval a ha).dvd) (d2.trans (hval b hb).dvd)
    have h3 : (E.sort (l.map fun x => (makePos x.1, x.2))).Pairwise fun a b => IsRelPrime (val a.1) (val b.1) := by
      refine (List.Perm.pairwise_iff ?_ hperm).2 h2
      intro a b h
      exact IsRelPrime.symm h
    refine ⟨⟨fun x hx => ?_, fun x hx z hz => ?_, fun x hx => ?_, fun x hx z hz => ?_, ?_⟩, ⟨fun x hx => ?_, h3⟩, fun x hx => ?_⟩
    · obtain ⟨y, hy, rfl⟩ := key x hx; exact (makePos_spec (hl.ok y hy)).1
    · obtain ⟨y, hy, rfl⟩ := key x hx
      dsimp only at hz
      rcases (makePos_spec (hl.ok y hy)).2.1 with e | e <;> rw [e] at hz
      · exact hl.nonconst y hy z hz
      · exact hl.nonconst y hy (-z) (by rw [C_neg, ← hz, neg_neg])
    · obtain ⟨y, hy, rfl⟩ := key x hx; exact hl.pos y hy
    · obtain ⟨y, hy, rfl⟩ := key x hx; exact hl.prim y hy z (hz.trans (hval y hy).dvd)
    · dsimp only
      rw [facProd_perm hperm, fixSign_prod]
      exact hl.prod
    · obtain ⟨y, hy, rfl⟩ := key x hx; exact (hcop.sqf y hy).squarefree_of_dvd (hval y hy).dvd
    · obtain ⟨y, hy, rfl⟩ := key x hx
      refine (makePos_spec (hl.ok y hy)).2.2 fun e => hl.nonconst y hy 0 ?_
      rw [e, val_nil, C_0]

include ho hE hS hU hprev hT hL hsort in
/-- `factorize(polynomial_<ZZ,lex_>)` -/
theorem factorN_spec : ∀ (n : ℕ) {F : PV Mono ℤ}, In vc V N F → Post (factorN E n F) fun r => FacX ex vc (lexGt vc) (val F) r.1 r.2 ∧ (1 < (val F).vars.card → MFac ex vc (val F) r.1 r.2) := by
  have M := lex_ord ho
  intro n F hF
  match n with
  | 0 => exact Post.fail
  | n + 1 =>
    unfold factorN
    have hm : 1 < (val F).vars.card → Post (factorMulti E (factorN E n) F) fun r => MFac ex vc (val F) r.1 r.2 := fun h =>
      factorMulti_spec ho hE hS hU hprev hT hL hsort hF fun e => by rw [e, val_nil] at h; simp at h
    refine (facLex_spec ho hS hU hF fun h => (hm h).mono fun r hr => hr.fac).and ?_
    match F, hF, hm with
    | [], _, _ => exact Post.ret fun h => by rw [val_nil] at h; simp at h
    | t :: F', hF, hm =>
      obtain ⟨F, e⟩ : ∃ F, F = t :: F' := ⟨_, rfl⟩
      unfold facLex
      dsimp only
      rw [← e] at hF hm ⊢
      refine Post.ite (fun hn => Post.ret fun h => ?_) fun hn => Post.ite (fun h1 => ?_) fun h1 s r hr h => ?_
      · rw [(number_of_vars ho hF.ok).1 hn] at h; simp at h
      · rw [polyVars_eq M hF.ok] at h1; exact (hm h1).mono fun r hr _ => hr
      · rw [polyVars_eq M hF.ok] at h1; exact absurd h h1

end

end Wang
end CLPoly
