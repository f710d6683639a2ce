import Verif.Wang.Full
import Verif.Wang.Strict

/-! # All factors are irreducible, if the lifted candidates have the right images -/

namespace CLPoly
namespace Wang
open Mono Mgcd Run Upoly Factor MvPolynomial

section
variable {vc : Var → Var → Bool} {V : Finset Var} {N : ℕ}

/-- **specification** of the lifting: if it answers, the univariate factors are pairwise coprime modulo the prime, and the candidates have them as images at the point, up to units modulo the prime -/
def LiftImg (E : Env) (vc : Var → Var → Bool) (V : Finset Var) (N : ℕ) : Prop :=
  ∀ g us α y c p, In vc V N g → p.Prime → p ≤ firstPrime → GoodPoint y p (val g) α → (∀ u ∈ us, Canon Upoly.comp u ∧ (toPoly u).IsPrimitive ∧ Irreducible (toPoly u) ∧ 0 < (toPoly u).natDegree) → 2 ≤ us.length →
    (Polynomial.C c * (us.map toPoly).prod = evalAt y (ptVal α) (val g) ∨ Polynomial.C c * (us.map toPoly).prod = -evalAt y (ptVal α) (val g)) →
    Post (E.lift g us α y c p) fun r => r ≠ [] → (us.map toPoly).Pairwise (fun u v => IsCoprime (red p u) (red p v)) ∧
      List.Forall₂ (fun h u => Associated (red p (evalAt y (ptVal α) (val h))) (red p (toPoly u))) r us

theorem powProd_one : ∀ {l : List (UPoly ℤ × ℕ)}, (∀ x ∈ l, x.2 = 1) → powProd l = (l.map fun x => toPoly x.1).prod := by
  intro l h
  unfold powProd
  congr 1
  exact List.map_congr_left fun x hx => by rw [h x hx, pow_one]

/-- at a good point all exponents are 1 -/
theorem exponents_one {y : Var} {p : ℕ} {G : MvPolynomial Var ℤ} {α : List (Var × ℤ)} (hα : GoodPoint y p G α) {c : ℤ} {l : List (UPoly ℤ × ℕ)}
    (h : Polynomial.C c * powProd l = evalAt y (ptVal α) G ∨ Polynomial.C c * powProd l = -evalAt y (ptVal α) G) (hi : ∀ x ∈ l, x.2 ≠ 0 ∧ 0 < (toPoly x.1).natDegree) : ∀ x ∈ l, x.2 = 1 := by
  intro x hx
  obtain ⟨h1, h2⟩ := hi x hx
  by_contra hc
  have hd : toPoly x.1 * toPoly x.1 ∣ powProd l := by
    unfold powProd
    refine Dvd.dvd.trans ?_ (List.dvd_prod (List.mem_map_of_mem (f := fun x : UPoly ℤ × ℕ => toPoly x.1 ^ x.2) hx))
    rw [← pow_two]
    exact pow_dvd_pow _ (by omega)
  have hd' : toPoly x.1 * toPoly x.1 ∣ evalAt y (ptVal α) G := by
    rcases h with e | e
    · rw [← e]; exact hd.mul_left _
    · rw [← dvd_neg, ← e]; exact hd.mul_left _
  have := hα.sqf _ hd'
  omega

/-- the data of a good point -/
theorem rem_of_point {y : Var} {p : ℕ} (hp : p.Prime) {G : MvPolynomial Var ℤ} (hfull : PrimWrt y G) {α : List (Var × ℤ)} (hα : GoodPoint y p G α) {c : ℤ} {us : List (UPoly ℤ)}
    (h : Polynomial.C c * (us.map toPoly).prod = evalAt y (ptVal α) G ∨ Polynomial.C c * (us.map toPoly).prod = -evalAt y (ptVal α) G)
    (hi : ∀ u ∈ us, Irreducible (toPoly u) ∧ 0 < (toPoly u).natDegree) (hcop : (us.map toPoly).Pairwise fun u v => IsCoprime (red p u) (red p v)) : Rem p y (ptVal α) (us.map toPoly) c G := by
  have hpp : Prime (p : ℤ) := Nat.prime_iff_prime_int.1 hp
  have hl : (evalAt y (ptVal α) G).natDegree = G.degreeOf y := le_antisymm (evalAt_natDegree_le _ _ _) (Polynomial.le_natDegree_of_ne_zero hα.lead)
  have hm := hα.modp hp.ne_zero
  rw [← hl] at hm
  have hlc : ¬ (p : ℤ) ∣ (Polynomial.C c * (us.map toPoly).prod).leadingCoeff := by
    rcases h with e | e <;> rw [e]
    · exact hm
    · rw [Polynomial.leadingCoeff_neg, dvd_neg]; exact hm
  rw [Polynomial.leadingCoeff_mul, Polynomial.leadingCoeff_C] at hlc
  refine ⟨fun u hu => ?_, fun hd => hlc (hd.mul_right _), hcop, ?_, hfull, hl⟩
  · obtain ⟨w, hw, rfl⟩ := List.mem_map.1 hu
    refine ⟨(hi w hw).1, (hi w hw).2, fun hd => hlc (Dvd.dvd.mul_left ?_ _)⟩
    obtain ⟨k, hk⟩ := List.dvd_prod hu
    rw [hk, Polynomial.leadingCoeff_mul]
    exact hd.mul_right _
  · rcases h with e | e
    · exact dvd_of_eq e.symm
    · rw [← dvd_neg]; exact dvd_of_eq (by rw [e, neg_neg])

theorem pickPrime_prime {prev : ℕ → Option ℕ} (hprev : PrevOK prev) (L : PV Mono ℤ) : ∀ n p q, p.Prime → p ≤ firstPrime → pickPrime prev L n p = some q → q.Prime ∧ q ≤ firstPrime := by
  intro n
  induction n with
  | zero => intro p q _ _ h; simp [pickPrime] at h
  | succ n ih =>
    intro p q hp hl h
    unfold pickPrime at h
    split at h
    · cases e : prev p with
      | none => rw [e] at h; simp at h
      | some r =>
        rw [e, Option.bind_some] at h
        obtain ⟨a, b⟩ := hprev p r e
        exact ih r q b (by omega) h
    · cases h; exact ⟨hp, hl⟩

variable (ho : VarOrd vc) {E : Env} (hE : E.vc = vc) (hS : Small V N) (hprev : PrevOK E.prev) (hT : Tame E.strict V N E.prev) (hU : UniOK False N E.uni) (hI : UniIrr N E.uni) (hL : LiftFits E vc V N) (hLi : LiftImg E vc V N)
  {facL : PV Mono ℤ → Run (ℤ × List (PV Mono ℤ × ℕ))} (hfac : ∀ L, In vc V N L → Post (facL L) fun r => FacX False vc (lexGt vc) (val L) r.1 r.2)
  {x : Var} {g : PV Mono ℤ} (hg : In vc V N g) (hpos : Pos g) (hG : Prm vc x (val g))

include ho hE hS hprev hT hU hI hL hLi hfac hg hpos hG in
theorem batch_all {y : Var} (hfull : PrimWrt y (val g)) {p : ℕ} (hp : p.Prime) (hpl : p ≤ firstPrime) : ∀ n skip, Post (batch E facL g y p n skip) fun b => ∀ l, b = .found l → ∀ h ∈ l, Irreducible (val h) := by
  intro n
  haveI : Fact p.Prime := ⟨hp⟩
  induction n with
  | zero => intro _; exact Post.ret (by simp)
  | succ n ih =>
    intro skip
    unfold batch
    refine (selectEval_spec ho hE hS hprev hg hpos.ne hfac).bind fun α hα => ?_
    have hx : α.lookup y = none := by
      by_contra hc
      exact ((hα.1.keys y).1 (lookup_keys.1 (Option.isSome_iff_ne_none.2 hc))).2 rfl
    have hα' : ∀ w ∈ (val g).vars, w = y ∨ (α.lookup w).isSome = true := fun w hw => by
      by_cases e : w = y
      · exact .inl e
      · exact .inr (lookup_keys.2 ((hα.1.keys w).2 ⟨hw, e⟩))
    have hf0 := assignAt_upoly ho hx hg.ok hα'
    have hdeg := (evalAt_natDegree_le y (ptVal α) (val g)).trans (hg.deg y)
    rw [hE]
    refine ((hU _ _ hf0 hdeg).and (hI _ _ hf0 hdeg)).bind fun u hu => Post.ite (fun hl => Post.ret (by simp)) fun h2 => ?_
    obtain ⟨⟨u1, u2⟩, u3⟩ := hu
    have u1 := u1.imp id And.right
    have hone := exponents_one hα.1 u1 fun z hz => ⟨(u2 z hz).2.2.2, (u2 z hz).2.2.1⟩
    rw [powProd_one hone] at u1
    have emap : (u.2.map Prod.fst).map toPoly = u.2.map fun x => toPoly x.1 := by rw [List.map_map]; rfl
    rw [← emap] at u1
    have hui : ∀ v ∈ u.2.map Prod.fst, Canon Upoly.comp v ∧ (toPoly v).IsPrimitive ∧ Irreducible (toPoly v) ∧ 0 < (toPoly v).natDegree := fun v hv => by
      obtain ⟨z, hz, rfl⟩ := List.mem_map.1 hv
      exact ⟨(u2 z hz).1, (u2 z hz).2.1, u3 z hz, (u2 z hz).2.2.1⟩
    refine ((hL g _ _ _ _ _ hg).and (hLi g _ α y u.1 p hg hp hpl hα.1 hui (by rw [List.length_map]; omega) u1)).bind fun cands hc => Post.ite (fun _ => ih _) fun hne => ?_
    obtain ⟨c1, c2⟩ := hc
    obtain ⟨c3, c4⟩ := c2 hne
    have hR := rem_of_point hp hfull hα.1 u1 (fun v hv => (hui v hv).2.2) c3
    refine (tryCands_irr ho hE hS hprev hT hg hpos hG c1 (p := p) (y := y) (a := ptVal α) ?_ ?_ hR).bind fun r hr => ?_
    · refine List.forall₂_map_right_iff.2 (c4.imp fun h v hv => hv.dvd)
    · intro h hh
      obtain ⟨i, hi, rfl⟩ := List.getElem_of_mem hh
      have hl := c4.length_eq
      have := (List.forall₂_iff_get.1 c4).2 i hi (by omega)
      dsimp only [List.get_eq_getElem] at this
      have hd := Polynomial.degree_eq_degree_of_associated this
      have hm : (u.2.map Prod.fst)[i] ∈ u.2.map Prod.fst := List.getElem_mem _
      have e := hR.red_deg (hR.u_dvd (List.mem_map_of_mem (f := toPoly) hm))
      have := (hui _ hm).2.2.2
      rw [Polynomial.natDegree_eq_of_degree_eq hd, e]
      exact this
    · match r, hr with
      | some ver, hr =>
        refine Post.ret ?_
        rintro _ ⟨⟩
        exact hr ver rfl
      | none, _ => exact ih _

include ho hE hS hprev hT hU hI hL hLi hfac hg hpos hG in
theorem round_all : ∀ vs : List VarSt, (∀ s ∈ vs, PrimWrt s.x (val g)) → Post (round E facL g vs) fun r => (∀ l, r = .inl l → ∀ h ∈ l, Irreducible (val h)) ∧ ∀ vs', r = .inr vs' → vs'.map VarSt.x = vs.map VarSt.x := by
  intro vs
  induction vs with
  | nil => intro _; refine Post.ret ⟨by simp, ?_⟩; rintro _ ⟨⟩; rfl
  | cons s vs ih =>
    intro hd
    have step : ∀ s' : VarSt, s'.x = s.x → Post (bind (round E facL g vs) fun r => ret (r.map id (s' :: ·))) fun r =>
        (∀ l, r = .inl l → ∀ h ∈ l, Irreducible (val h)) ∧ ∀ vs', r = .inr vs' → vs'.map VarSt.x = (s :: vs).map VarSt.x := fun s' h1 =>
      (ih fun u hu => hd u (by simp [hu])).bind fun r hr => Post.ret ⟨fun l hl => by
        cases r with
        | inl l' => rw [Sum.map_inl] at hl; cases hl; exact hr.1 _ rfl
        | inr l' => simp at hl, fun vs' hv => by
        cases r with
        | inl l' => simp at hv
        | inr l' =>
          rw [Sum.map_inr] at hv
          cases hv
          rw [List.map_cons, List.map_cons, hr.2 _ rfl, h1]⟩
    unfold round
    refine Post.ite (fun h => step s rfl) fun _ => (Post.lift (Q := fun p => p.Prime ∧ p ≤ firstPrime) fun p hp => pickPrime_prime hprev _ _ _ _ firstPrime_prime le_rfl hp).bind fun p hp => ?_
    refine (batch_all ho hE hS hprev hT hU hI hL hLi hfac hg hpos hG (hd s (by simp)) hp.1 hp.2 200 s.skip).bind fun b hb => ?_
    match b, hb with
    | .found l, hb =>
      refine Post.ret ⟨?_, by simp⟩
      rintro _ ⟨⟩
      exact hb l rfl
    | .dead, hb => exact step _ rfl
    | .out, _ => exact step _ rfl

include ho hE hS hprev hT hU hI hL hLi hfac hg hpos hG in
theorem rounds_all : ∀ n (vs : List VarSt), (∀ s ∈ vs, PrimWrt s.x (val g)) → Post (rounds E facL g n vs) fun l => l = [g] ∨ ∀ h ∈ l, Irreducible (val h) := by
  intro n
  induction n with
  | zero => intro _ _; exact Post.fail
  | succ n ih =>
    intro vs hd
    unfold rounds
    refine (round_all ho hE hS hprev hT hU hI hL hLi hfac hg hpos hG vs hd).bind fun r hr => ?_
    match r, hr with
    | .inl ver, hr => exact Post.ret (.inr (hr.1 ver rfl))
    | .inr vs', hr =>
      refine Post.ite (fun _ => Post.ret (.inl rfl)) fun _ => ih vs' fun s hs => ?_
      have : s.x ∈ vs.map VarSt.x := by rw [← hr.2 vs' rfl]; exact List.mem_map_of_mem hs
      obtain ⟨s', hs', e'⟩ := List.mem_map.1 this
      rw [← e']; exact hd s' hs'

include ho hE hS hprev hT hU hI hL hLi hfac hg hpos hG in
/-- **`__wang_core`**: all factors are irreducible -/
theorem wangCore_all (hn : isNumber g = false) (hfull : ∀ y, 1 < (val g).degreeOf y → PrimWrt y (val g)) : Post (wangCore E facL g) fun l => ∀ h ∈ l, Irreducible (val h) := by
  refine Post.mono ((wangCore_irr ho hE hS hprev hT hU hI hL hfac hg hpos hG hn).and (Q := fun l => l = [g] ∨ ∀ h ∈ l, Irreducible (val h)) ?_) fun l hl => ?_
  · unfold wangCore
    dsimp only
    refine Post.ite (fun h0 => Post.ret (.inl rfl)) fun _ => rounds_all ho hE hS hprev hT hU hI hL hLi hfac hg hpos hG _ _ fun s hs => ?_
    obtain ⟨y, hy, rfl⟩ := List.mem_map.1 hs
    have := (List.mem_filter.1 hy).2
    rw [decide_eq_true_eq, hE, degreeLex_spec ho hg.ok y] at this
    exact hfull y (by exact_mod_cast this)
  · rcases hl.2 with e | e
    · subst e
      intro h hh
      exact hl.1 h (by rw [List.mem_singleton.1 hh])
    · exact e

/-! ## the whole factorization -/

/-- all factors are irreducible -/
def IrrAll (l : List (PV Mono ℤ × ℕ)) : Prop := ∀ y ∈ l, Irreducible (val y.1)

theorem IrrAll.append {l m : List (PV Mono ℤ × ℕ)} (hl : IrrAll l) (hm : IrrAll m) : IrrAll (l ++ m) := fun y hy => (List.mem_append.1 hy).elim (hl y) (hm y)

theorem IrrAll.times {l : List (PV Mono ℤ × ℕ)} (h : IrrAll l) (k : ℕ) : IrrAll (times k l) := fun y hy => by
  obtain ⟨x, hx, rfl⟩ := List.mem_map.1 hy
  exact h x hx

theorem IrrAll.nil : IrrAll [] := fun _ h => by simp at h

include ho hS hU hI in
theorem facLex_all {multi : PV Mono ℤ → Run (ℤ × List (PV Mono ℤ × ℕ))} {F : PV Mono ℤ} (hF : In vc V N F)
    (hmulti : 1 < (val F).vars.card → Post (multi F) fun r => IrrAll r.2) : Post (facLex E multi F) fun r => IrrAll r.2 := by
  have M := lex_ord ho
  match F, hF with
  | [], hF => exact Post.ret IrrAll.nil
  | t :: F', hF =>
    obtain ⟨F, e⟩ : ∃ F, F = t :: F' := ⟨_, rfl⟩
    unfold facLex
    dsimp only
    rw [← e] at hF hmulti ⊢
    refine Post.ite (fun hn => Post.ret IrrAll.nil) fun hn => Post.ite (fun h1 => hmulti (by rwa [polyVars_eq M hF.ok] at h1)) fun h1 => ?_
    rw [polyVars_eq M hF.ok] at h1
    have hn' : (val F).vars ≠ ∅ := fun h => hn ((number_of_vars ho hF.ok).2 h)
    have hfv : pFirstVar F ≠ 0 := fun h => hn' ((first_zero ho hF.ok (hF.zero hS)).1 h)
    obtain ⟨f1, f2, _⟩ := first_spec ho hF.ok hfv
    have hmem : pFirstVar F ∈ (val F).vars := by
      by_contra hc
      rw [degreeOf_zero_iff.2 hc] at f2
      exact absurd f2 (by omega)
    have hv : (val F).vars ⊆ {pFirstVar F} := fun w hw => by
      rw [Finset.mem_singleton]
      exact Finset.card_le_one.1 (by omega) w hw _ hmem
    have hd := ret_natDegree _ hv (hF.deg (pFirstVar F))
    have hi := polyToUpoly_spec ho M hF.ok hv
    refine ((hU _ _ hi hd).and (hI _ _ hi hd)).bind fun r hr => Post.ret fun y hy => ?_
    obtain ⟨x, hx, rfl⟩ := List.mem_map.1 hy
    dsimp only
    rw [(upolyToPoly_spec ho (pFirstVar F) (is_of_canon (hr.1.2 x hx).1)).2]
    exact emb_irreducible _ (hr.2 x hx)

include ho hS hU hI in
theorem addUni_all {g : PV Mono ℤ} (hg : In vc V N g) (hc : (val g).vars.card ≤ 1) (k : ℕ) {s : ℤ × List (PV Mono ℤ × ℕ)} (hs : IrrAll s.2) : Post (addUni E k g s) fun s' => IrrAll s'.2 := by
  unfold addUni
  exact (facLex_all ho hS hU hI hg fun h => absurd h (by omega)).bind fun r hr => Post.ret (hs.append (hr.times k))

/-- the irreducible divisors that are not variables contain the same variables -/
def SameVars (G : MvPolynomial Var ℤ) : Prop := ∀ A B, Irreducible A → Irreducible B → A ∣ G → B ∣ G → (∀ v, ¬ X v ∣ A) → (∀ v, ¬ X v ∣ B) → A.vars = B.vars

theorem SameVars.full {G : MvPolynomial Var ℤ} (h : SameVars G) (h0 : G ≠ 0) (hX : ∀ v, ¬ X v ∣ G) {y : Var} (hy : y ∈ G.vars) : PrimWrt y G := by
  intro e he hd
  by_contra hu
  have e0 : e ≠ 0 := by rintro rfl; exact h0 (zero_dvd_iff.1 hd)
  obtain ⟨A, a1, a2⟩ := WfDvdMonoid.exists_irreducible_factor hu e0
  have hA : y ∉ A.vars := fun hc => he (vars_of_dvd a2 e0 hc)
  obtain ⟨m, hm, hG⟩ := UniqueFactorizationMonoid.exists_prime_factors G h0
  have : ∃ B ∈ m, y ∈ B.vars := by
    by_contra hc
    push Not at hc
    have hprod : y ∉ m.prod.vars := by
      clear hG hm
      induction m using Multiset.induction_on with
      | empty => simp
      | cons B m ih =>
        rw [Multiset.prod_cons]
        intro hcm
        rcases Finset.mem_union.1 (vars_mul _ _ hcm) with h | h
        · exact hc B (by simp) h
        · exact ih (fun B hB => hc B (by simp [hB])) h
    have hpz : m.prod ≠ 0 := fun e => h0 (by rw [e] at hG; exact hG.eq_zero_iff.1 rfl)
    exact hprod (vars_of_dvd hG.symm.dvd hpz hy)
  obtain ⟨B, hB, hyB⟩ := this
  have hBG : B ∣ G := (Multiset.dvd_prod hB).trans hG.dvd
  have := h A B a1 (hm B hB).irreducible (a2.trans hd) hBG (fun v hv => hX v (hv.trans (a2.trans hd))) fun v hv => hX v (hv.trans hBG)
  rw [this] at hA
  exact hA hyB

theorem SameVars.of_dvd {G H : MvPolynomial Var ℤ} (h : SameVars G) (hd : H ∣ G) : SameVars H := fun A B a b c d => h A B a b (c.trans hd) (d.trans hd)

include ho hE hS hU hI hprev hT hL hLi hfac in
theorem addPart_all {g : PV Mono ℤ} (hg : In vc V N g) (hp : isNumber g = false → ∃ x, Prm vc x (val g)) (hsame : isNumber g = false → SameVars (val g)) (k : ℕ) {s : ℤ × List (PV Mono ℤ × ℕ)} (hs : IrrAll s.2) :
    Post (addPart E facL g k s) fun s' => IrrAll s'.2 := by
  have M := lex_ord ho
  unfold addPart
  refine Post.ite (fun hn => Post.ret hs) fun hn => ?_
  obtain ⟨x, hx⟩ := hp (by simpa using hn)
  refine Post.ite (fun h1 => addUni_all ho hS hU hI hg (by rwa [polyVars_eq M hg.ok] at h1) k hs) fun _ => ?_
  dsimp only
  rw [hE]
  obtain ⟨m1, m2, m3⟩ := extractMono_spec ho hg.ok
  have m4 := extractMono_no_var ho hg.ok fun e => hx.prim.ne_zero (by rw [e, val_nil])
  obtain ⟨e, he⟩ : ∃ e, e = extractMono vc g := ⟨_, rfl⟩
  rw [← he] at m1 m2 m3 m4 ⊢
  have hd : val e.1 ∣ val g := ⟨_, by rw [m3, mul_comm]⟩
  have he1 : In vc V N e.1 := hg.of_dvd hx.prim.ne_zero m1 hd
  have hs' : IrrAll (s.2 ++ e.2.map fun x => ([((⟨[(x.1, 1)], 1⟩ : Mono), (1 : ℤ))], x.2.toNat * k)) := hs.append fun y hy => by
    obtain ⟨z, hz, rfl⟩ := List.mem_map.1 hy
    have : val [((⟨[(z.1, 1)], 1⟩ : Mono), (1 : ℤ))] = X z.1 := by
      rw [val_cons, val_nil, add_zero]
      simp [expo, X]
    dsimp only
    rw [this]
    rw [← emb_X]
    exact emb_irreducible _ Polynomial.irreducible_X
  refine Post.ite (fun h1 => addUni_all ho hS hU hI he1 (by rwa [polyVars_eq M m1] at h1) k hs') fun h1 => ?_
  have hx1 := hx.of_dvd hd
  obtain ⟨q1, q2, q3⟩ := makePos_spec m1
  have e0 : e.1 ≠ [] := fun h => hx1.prim.ne_zero (by rw [h, val_nil])
  have qd : val (makePos e.1) ∣ val e.1 := by rcases q2 with q | q <;> rw [q]; exact (neg_dvd).2 dvd_rfl
  have hx2 := hx1.of_dvd qd
  have hn2 : isNumber (makePos e.1) = false := by
    by_contra hc
    rw [Bool.not_eq_false, number_of_vars ho q1] at hc
    rw [polyVars_eq M m1] at h1
    have : (val e.1).vars = ∅ := by
      rcases q2 with q | q <;> rw [q] at hc
      · exact hc
      · rwa [vars_neg] at hc
    rw [this] at h1
    simp at h1
  have hfull : ∀ y, 1 < (val (makePos e.1)).degreeOf y → PrimWrt y (val (makePos e.1)) := fun y hy =>
    ((hsame (by simpa using hn)).of_dvd (qd.trans hd)).full hx2.prim.ne_zero (fun v hv => m4 v (hv.trans qd)) (by
      by_contra hc
      rw [degreeOf_zero_iff.2 hc] at hy
      omega)
  refine (wangCore_all ho hE hS hprev hT hU hI hL hLi hfac (he1.of_dvd hx1.prim.ne_zero q1 qd) (q3 e0) hx2 hn2 hfull).bind fun fs hfs => Post.ret (hs'.append fun y hy => ?_)
  obtain ⟨h, hh, rfl⟩ := List.mem_map.1 hy
  exact hfs h hh

include ho hE hS hU hI hprev hT hL hLi hfac in
theorem addParts_all : ∀ {t : List (PV Mono ℤ × ℕ)}, Parts vc V N t → (∀ x ∈ t, SameVars (val x.1)) → ∀ s, IrrAll s.2 → Post (addParts E facL t s) fun s' => IrrAll s'.2 := by
  intro t
  induction t with
  | nil => intro _ _ s hs; exact Post.ret hs
  | cons y t ih =>
    intro h hsame s hs
    unfold addParts
    obtain ⟨a1, a2, a3, a4⟩ := h.parts y (by simp)
    refine (addPart_all ho hE hS hprev hT hU hI hL hLi hfac a1 (fun _ => a4) (fun _ => hsame y (by simp)) y.2 hs).bind fun s1 hs1 => ?_
    exact ih ⟨fun x hx => h.parts x (by simp [hx]), (List.pairwise_cons.1 h.coprime).2⟩ (fun x hx => hsame x (by simp [hx])) _ hs1

variable (hsort : ∀ l, (E.sort l).Perm l)

/-- **specification**: irreducible divisors with the same multiplicity, other than constants and variables, contain the same variables -/
def AlikeFactors (F : MvPolynomial Var ℤ) : Prop :=
  ∀ A B, Irreducible A → Irreducible B → A ∣ F → B ∣ F → A.vars ≠ ∅ → B.vars ≠ ∅ → (∀ v, ¬ X v ∣ A) → (∀ v, ¬ X v ∣ B) → multiplicity A F = multiplicity B F → A.vars = B.vars

include ho hE hS hU hI hprev hT hL hLi hfac hsort in
theorem factorMulti_all {f : PV Mono ℤ} (hf : In vc V N f) (h0 : f ≠ []) (hal : AlikeFactors (val f)) : Post (factorMulti E facL f) fun r => IrrAll r.2 := by
  have M := lex_ord ho
  unfold factorMulti
  rw [hE]
  refine (squarefreeFactorize_spec ho hS (gcdZ_spec' ho hS hprev hT E.fuel E.fuel) E.fuel E.fuel f hf).bind fun sqf hsqf => ?_
  rcases hsqf with ⟨e, _⟩ | ⟨_, c, t, rfl, ht⟩
  · exact absurd e h0
  have hsame : ∀ x ∈ t, SameVars (val x.1) := fun x hx A B a b da db ha hb => by
    have hd : val x.1 ∣ val f := by rw [ht.prod]; exact (dvd_prodPow hx (ht.parts x hx).2.1).mul_left _
    have hc : ∀ D : MvPolynomial Var ℤ, Irreducible D → D ∣ val x.1 → D.vars ≠ ∅ := fun D hD hd e => hD.not_isUnit ((ht.parts x hx).2.2.2 D e hd)
    refine hal A B a b (da.trans hd) (db.trans hd) (hc A a da) (hc B b db) ha hb ?_
    exact (ht.mult x hx A a.prime da).trans (ht.mult x hx B b.prime db).symm
  have hok : ∀ s, Post (addParts E facL t s) fun s' => IrrAll s.2 → IrrAll s'.2 := fun s s0 r hr hs =>
    addParts_all ho hE hS hprev hT hU hI hL hLi hfac (t := t) ⟨fun x hx => by
      obtain ⟨b1, b2, b3, _⟩ := ht.parts x hx
      obtain ⟨v, v1, v2⟩ := ht.prm x hx
      exact ⟨b1, b2, b3, v, v1, v2⟩, ht.coprime⟩ hsame s hs s0 r hr
  have hcn : isNumber c = true := (number_of_vars ho ht.inc.ok).2 ht.const
  refine Post.bind (P := fun s : ℤ × List (PV Mono ℤ × ℕ) => IrrAll s.2) ?_ fun s hs => Post.ret ?_
  · unfold addParts
    refine (addPart_all ho hE hS hprev hT hU hI hL hLi hfac ht.inc (fun h => ?_) (fun h => ?_) 1 (s := (1, [])) IrrAll.nil).bind fun s1 hs1 => (hok s1).mono fun s2 h => h hs1
    · rw [hcn] at h; exact absurd h (by simp)
    · rw [hcn] at h; exact absurd h (by simp)
  · intro y hy
    have hm := (hsort (s.2.map fun x => (makePos x.1, x.2))).subset hy
    obtain ⟨x, hx, rfl⟩ := List.mem_map.1 hm
    have hi := hs x hx
    dsimp only
    have hs := makePos_sign x.1
    split at hs
    · rw [hs, C_neg, C_1, neg_one_mul] at hi; exact (Associated.refl _).neg_left.irreducible hi
    · rw [C_1, one_mul] at hs; rw [hs] at hi; exact hi

include ho hE hS hU hI hprev hT hL hLi hsort in
/-- **`factorize`**: all factors are irreducible -/
theorem factorN_all (n : ℕ) {F : PV Mono ℤ} (hF : In vc V N F) (hal : AlikeFactors (val F)) : Post (factorN E n F) fun r => IrrAll r.2 := by
  match n with
  | 0 => exact Post.fail
  | n + 1 =>
    unfold factorN
    refine facLex_all ho hS hU hI hF fun h => factorMulti_all ho hE hS hprev hT hU hI hL hLi (fun L hL' => ?_) hsort hF (fun e => by rw [e, val_nil] at h; simp at h) hal
    exact (factorN_spec ho hE hS hU hprev hT hL hsort n hL').mono fun r hr => hr.1

include ho hE hS hU hI hprev hT hL hLi hsort in
theorem factorAny_all {vc' : Var → Var → Bool} {mc' : Mono → Mono → Bool} (M : MonoOrd vc' mc') (n : ℕ) {F : PV Mono ℤ} (hF : PolyOK vc' mc' F) (hv : (val F).vars ⊆ V) (hd : ∀ w, (val F).degreeOf w ≤ N) (hal : AlikeFactors (val F)) :
    Post (factorAny E n vc' mc' F) fun r => IrrAll r.2 := by
  obtain ⟨a1, a2⟩ := toLex_in ho M hF hv hd
  unfold factorAny
  rw [hE]
  refine ((factorN_spec ho hE hS hU hprev hT hL hsort n a1).and (factorN_all ho hE hS hprev hT hU hI hL hLi hsort n a1 (by rw [a2]; exact hal))).bind fun r hr => Post.ret fun y hy => ?_
  obtain ⟨x, hx, rfl⟩ := List.mem_map.1 hy
  dsimp only
  rw [(convert_val (lex_ord ho) M (hr.1.1.ok x hx)).2]
  exact hr.2 x hx

end

end Wang
end CLPoly
