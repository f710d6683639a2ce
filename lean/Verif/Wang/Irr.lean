import Verif.Wang.Point

/-! # A polynomial that `__wang_core` returns whole is irreducible -/

namespace CLPoly
namespace Wang
open Mono Mgcd Run Upoly Factor MvPolynomial

section
variable {vc : Var → Var → Bool} {V : Finset Var} {N : ℕ}

/-- the factors found by the univariate factorization are irreducible -/
def UniIrr (N : ℕ) (uni : UPoly ℤ → Run (ℤ × List (UPoly ℤ × ℕ))) : Prop := ∀ f F, Is f F → F.natDegree ≤ N → Post (uni f) fun r => ∀ x ∈ r.2, Irreducible (toPoly x.1)

/-- no factorization of `G` has two factors with the variable `y` -/
def Indec (y : Var) (G : MvPolynomial Var ℤ) : Prop := ∀ A B, G = A * B → A.degreeOf y = 0 ∨ B.degreeOf y = 0

theorem indec_of_le_one {y : Var} {G : MvPolynomial Var ℤ} (h0 : G ≠ 0) (h : G.degreeOf y ≤ 1) : Indec y G := by
  rintro A B rfl
  rw [degreeOf_mul_dom (left_ne_zero_of_mul h0) (right_ne_zero_of_mul h0)] at h
  omega

theorem Prm.irreducible {x : Var} {G : MvPolynomial Var ℤ} (hG : Prm vc x G) (hu : ¬ IsUnit G) (h : Indec x G) : Irreducible G := by
  refine ⟨hu, fun A B e => ?_⟩
  rcases h A B e with h | h
  · exact .inl (hG.prim A (degreeOf_zero_iff.1 h) ⟨B, e⟩)
  · exact .inr (hG.prim B (degreeOf_zero_iff.1 h) ⟨A, by rw [e, mul_comm]⟩)

/-- at a good point at most one irreducible factor -/
theorem indec_of_point {y : Var} {p : ℕ} {G : MvPolynomial Var ℤ} {α : List (Var × ℤ)} (hα : GoodPoint y p G α) {c : ℤ} {l : List (UPoly ℤ × ℕ)} (hl : l.length ≤ 1)
    (h : Polynomial.C c * powProd l = evalAt y (ptVal α) G ∨ Polynomial.C c * powProd l = -evalAt y (ptVal α) G) (hi : ∀ x ∈ l, Irreducible (toPoly x.1) ∧ x.2 ≠ 0 ∧ 0 < (toPoly x.1).natDegree) :
    Indec y G := by
  rintro A B rfl
  by_contra hc
  push Not at hc
  have hlead := hα.lead
  have h0 : A * B ≠ 0 := by rintro e; rw [e] at hlead; simp at hlead
  have hdeg := degreeOf_mul_dom (v := y) (left_ne_zero_of_mul h0) (right_ne_zero_of_mul h0)
  obtain ⟨a, ha⟩ : ∃ a, a = evalAt y (ptVal α) A := ⟨_, rfl⟩
  obtain ⟨b, hb⟩ : ∃ b, b = evalAt y (ptVal α) B := ⟨_, rfl⟩
  have da := evalAt_natDegree_le y (ptVal α) A
  have db := evalAt_natDegree_le y (ptVal α) B
  have hsqf := hα.sqf
  rw [map_mul, ← ha, ← hb] at hlead h hsqf
  rw [← ha] at da
  rw [← hb] at db
  have ab0 : a * b ≠ 0 := by rintro e; rw [e] at hlead; simp at hlead
  have dab := Polynomial.natDegree_mul (left_ne_zero_of_mul ab0) (right_ne_zero_of_mul ab0)
  have dle := Polynomial.le_natDegree_of_ne_zero hlead
  have a1 : 0 < a.natDegree := by omega
  have b1 : 0 < b.natDegree := by omega
  -- the two values have a product with at most one irreducible factor of positive degree
  have key : ∀ u v : Polynomial ℤ, u * v = a * b → (u.natDegree = 0 → v.natDegree ≠ 0) := fun u v e hu hv => by
    have u0 := left_ne_zero_of_mul (e ▸ ab0)
    have v0 := right_ne_zero_of_mul (e ▸ ab0)
    rw [← e, Polynomial.natDegree_mul u0 v0] at dab
    omega
  match l, hl, hi with
  | [], _, _ =>
    have h' : Polynomial.C c = a * b ∨ Polynomial.C c = -(a * b) := by simpa [powProd] using h
    have : (a * b).natDegree = 0 := by
      rcases h' with e | e
      · rw [← e]; simp
      · rw [← Polynomial.natDegree_neg, ← e]; simp
    omega
  | [x], _, hi =>
    obtain ⟨i1, i2, i3⟩ := hi x (by simp)
    have hp : Prime (toPoly x.1) := i1.prime
    have h' : Polynomial.C c * toPoly x.1 ^ x.2 = a * b ∨ Polynomial.C c * toPoly x.1 ^ x.2 = -(a * b) := by simpa [powProd] using h
    obtain ⟨d, hd⟩ : ∃ d : ℤ, a * b = Polynomial.C d * toPoly x.1 ^ x.2 := by
      rcases h' with e | e
      · exact ⟨c, e.symm⟩
      · exact ⟨-c, by rw [Polynomial.C_neg, neg_mul, e, neg_neg]⟩
    have hk : x.2 = 1 := by
      by_contra hne
      have : toPoly x.1 * toPoly x.1 ∣ a * b := by
        rw [hd, ← pow_two]
        exact Dvd.dvd.mul_left (pow_dvd_pow _ (by omega)) _
      have := hsqf _ this
      omega
    rw [hk, pow_one] at hd
    have fin : ∀ u v : Polynomial ℤ, u * v = Polynomial.C d * toPoly x.1 → u * v ≠ 0 → toPoly x.1 ∣ u → v.natDegree = 0 := by
      rintro _ v e e0 ⟨w, rfl⟩
      have hw : w * v = Polynomial.C d := by
        have : toPoly x.1 * (w * v) = toPoly x.1 * Polynomial.C d := by rw [← mul_assoc, e, mul_comm]
        exact mul_left_cancel₀ hp.ne_zero this
      have w0 : w * v ≠ 0 := fun hw => e0 (by rw [mul_assoc, hw, mul_zero])
      have := congrArg Polynomial.natDegree hw
      rw [Polynomial.natDegree_mul (left_ne_zero_of_mul w0) (right_ne_zero_of_mul w0), Polynomial.natDegree_C] at this
      omega
    have hdv : toPoly x.1 ∣ a * b := ⟨Polynomial.C d, by rw [hd, mul_comm]⟩
    rcases hp.dvd_or_dvd hdv with e | e
    · have := fin a b hd ab0 e
      omega
    · have := fin b a (by rw [mul_comm, hd]) (by rwa [mul_comm]) e
      omega
  | _ :: _ :: _, hl, _ => simp at hl

variable (ho : VarOrd vc) {E : Env} (hE : E.vc = vc) (hS : Small V N) (hprev : PrevOK E.prev) (hT : Tame E.strict V N E.prev) (hU : UniOK False N E.uni) (hI : UniIrr N E.uni) (hL : LiftFits E vc V N)
  {facL : PV Mono ℤ → Run (ℤ × List (PV Mono ℤ × ℕ))} (hfac : ∀ L, In vc V N L → Post (facL L) fun r => FacX False vc (lexGt vc) (val L) r.1 r.2)
  {x : Var} {g : PV Mono ℤ} (hg : In vc V N g) (hpos : Pos g) (hG : Prm vc x (val g))

include ho hE hS hprev hT hU hI hL hfac hg hpos hG in
theorem batch_irr (y : Var) (p : ℕ) : ∀ n skip, Post (batch E facL g y p n skip) fun b => (b = .dead → Indec y (val g)) ∧ ∀ l, b = .found l → 2 ≤ l.length := by
  intro n
  induction n with
  | zero => intro _; exact Post.ret (by simp)
  | succ n ih =>
    intro skip
    unfold batch
    refine (selectEval_spec ho hE hS hprev hg hpos.ne hfac).bind fun α hα => ?_
    have hx : α.lookup y = none := by
      by_contra hc
      exact ((hα.1.keys y).1 (lookup_keys.1 (Option.isSome_iff_ne_none.2 hc))).2 rfl
    have hα' : ∀ w ∈ (val g).vars, w = y ∨ (α.lookup w).isSome = true := fun w hw => by
      by_cases e : w = y
      · exact .inl e
      · exact .inr (lookup_keys.2 ((hα.1.keys w).2 ⟨hw, e⟩))
    have hf0 := assignAt_upoly ho hx hg.ok hα'
    have hdeg := (evalAt_natDegree_le y (ptVal α) (val g)).trans (hg.deg y)
    rw [hE]
    refine ((hU _ _ hf0 hdeg).and (hI _ _ hf0 hdeg)).bind fun u hu => Post.ite (fun hl => Post.ret ⟨fun _ => ?_, by simp⟩) fun _ => ?_
    · exact indec_of_point hα.1 hl (hu.1.1.imp id And.right) fun z hz => ⟨hu.2 z hz, (hu.1.2 z hz).2.2.2, (hu.1.2 z hz).2.2.1⟩
    · refine (hL g _ _ _ _ _ hg).bind fun cands hc => Post.ite (fun _ => ih _) fun _ => ?_
      refine (tryCands_spec ho hE hS hprev hT hg hpos hG hc).bind fun r hr => ?_
      match r, hr with
      | some ver, hr =>
        refine Post.ret ⟨by simp, ?_⟩
        rintro _ ⟨⟩
        exact (hr ver rfl).1
      | none, _ => exact ih _

/-- the variables marked as dead are so -/
def DeadOK (G : MvPolynomial Var ℤ) (vs : List VarSt) : Prop := ∀ s ∈ vs, s.dead = true → Indec s.x G

include ho hE hS hprev hT hU hI hL hfac hg hpos hG in
theorem round_irr : ∀ vs, DeadOK (val g) vs → Post (round E facL g vs) fun r => (∀ l, r = .inl l → 2 ≤ l.length) ∧ ∀ vs', r = .inr vs' → DeadOK (val g) vs' ∧ vs'.map VarSt.x = vs.map VarSt.x := by
  intro vs
  induction vs with
  | nil => intro _; refine Post.ret ⟨by simp, ?_⟩; rintro _ ⟨⟩; exact ⟨by simp [DeadOK], rfl⟩
  | cons s vs ih =>
    intro hd
    have step : ∀ s' : VarSt, s'.x = s.x → (s'.dead = true → Indec s.x (val g)) → Post (bind (round E facL g vs) fun r => ret (r.map id (s' :: ·))) fun r =>
        (∀ l, r = .inl l → 2 ≤ l.length) ∧ ∀ vs', r = .inr vs' → DeadOK (val g) vs' ∧ vs'.map VarSt.x = (s :: vs).map VarSt.x := fun s' h1 h2 =>
      (ih fun u hu => hd u (by simp [hu])).bind fun r hr => Post.ret ⟨fun l hl => by
        cases r with
        | inl l' => rw [Sum.map_inl] at hl; cases hl; exact hr.1 _ rfl
        | inr l' => simp at hl, fun vs' hv => by
        cases r with
        | inl l' => simp at hv
        | inr l' =>
          rw [Sum.map_inr] at hv
          cases hv
          obtain ⟨a, b⟩ := hr.2 _ rfl
          refine ⟨fun u hu hu' => ?_, by rw [List.map_cons, List.map_cons, b, h1]⟩
          rcases List.mem_cons.1 hu with rfl | hu
          · rw [h1]; exact h2 hu'
          · exact a u hu hu'⟩
    unfold round
    refine Post.ite (fun h => step s rfl fun _ => hd s (by simp) h) fun _ => (Post.any _).bind fun p _ => ?_
    refine (batch_irr ho hE hS hprev hT hU hI hL hfac hg hpos hG s.x p 200 s.skip).bind fun b hb => ?_
    match b, hb with
    | .found l, hb =>
      refine Post.ret ⟨?_, by simp⟩
      rintro _ ⟨⟩
      exact hb.2 l rfl
    | .dead, hb => exact step _ rfl fun _ => hb.1 rfl
    | .out, _ => exact step _ rfl (by simp)

include ho hE hS hprev hT hU hI hL hfac hg hpos hG in
theorem rounds_irr : ∀ n vs, DeadOK (val g) vs → Post (rounds E facL g n vs) fun l => 2 ≤ l.length ∨ ∀ s ∈ vs, Indec s.x (val g) := by
  intro n
  induction n with
  | zero => intro _ _; exact Post.fail
  | succ n ih =>
    intro vs hd
    unfold rounds
    refine (round_irr ho hE hS hprev hT hU hI hL hfac hg hpos hG vs hd).bind fun r hr => ?_
    have tr : ∀ vs' : List VarSt, vs'.map VarSt.x = vs.map VarSt.x → (∀ s ∈ vs', Indec s.x (val g)) → ∀ s ∈ vs, Indec s.x (val g) := fun vs' e h s hs => by
      have : s.x ∈ vs'.map VarSt.x := by rw [e]; exact List.mem_map_of_mem hs
      obtain ⟨s', hs', e'⟩ := List.mem_map.1 this
      rw [← e']; exact h s' hs'
    match r, hr with
    | .inl ver, hr => exact Post.ret (.inl (hr.1 ver rfl))
    | .inr vs', hr =>
      obtain ⟨a, b⟩ := hr.2 vs' rfl
      refine Post.ite (fun hall => Post.ret (.inr (tr vs' b fun s hs => a s hs (List.all_eq_true.1 hall s hs)))) fun _ => (ih vs' a).mono fun l hl => ?_
      exact hl.imp id (tr vs' b)

include ho hE hS hprev hT hU hI hL hfac hg hpos hG in
/-- **`__wang_core`**: a single factor is irreducible -/
theorem wangCore_irr (hn : isNumber g = false) : Post (wangCore E facL g) fun l => ∀ h, l = [h] → Irreducible (val h) := by
  have M := lex_ord ho
  have hu : ¬ IsUnit (val g) := fun h => by
    obtain ⟨z, hz⟩ := unit_const h
    have := (isNumber_iff M hg.ok).2 ⟨z, hz⟩
    rw [hn] at this
    exact absurd this (by simp)
  have fin : (∀ y, 1 < (val g).degreeOf y → Indec y (val g)) → Irreducible (val g) := fun h => hG.irreducible hu (by
    by_cases e : 1 < (val g).degreeOf x
    · exact h x e
    · exact indec_of_le_one hG.prim.ne_zero (by omega))
  have mem : ∀ y, 1 < (val g).degreeOf y → y ∈ (pvVars vc g []).filter fun v => decide (1 < degreeLex vc g v) := fun y hy => by
    refine List.mem_filter.2 ⟨?_, ?_⟩
    · rw [mem_pvVars ho, polyVars_eq M hg.ok]
      by_contra hc
      have : y ∉ (val g).vars := fun h => hc (.inr h)
      rw [degreeOf_zero_iff.2 this] at hy
      omega
    · rw [decide_eq_true_eq]
      have := (degreeLex_spec ho hg.ok y)
      rw [this]
      exact_mod_cast hy
  refine Post.mono ((wangCore_spec ho hE hS hprev hT hL (facL := facL) hg hpos hG hn).and (Q := fun l => 2 ≤ l.length ∨ Irreducible (val g)) ?_) fun l hl h e => ?_
  · unfold wangCore
    dsimp only
    rw [hE]
    refine Post.ite (fun h0 => Post.ret (.inr (fin fun y hy => ?_))) fun _ => ?_
    · have := mem y hy
      rw [h0] at this
      simp at this
    · refine (rounds_irr ho hE hS hprev hT hU hI hL hfac hg hpos hG _ _ ?_).mono fun l hl => hl.imp id fun hl => fin fun y hy => ?_
      · intro s hs hd
        obtain ⟨y, _, rfl⟩ := List.mem_map.1 hs
        simp at hd
      · exact hl _ (List.mem_map_of_mem (f := fun x => (⟨x, 0, false⟩ : VarSt)) (mem y hy))
  · have hp := hl.1.prod
    rw [e] at hp
    have hp' : val h = val g := by simpa using hp
    rcases hl.2 with h2 | h2
    · rw [e] at h2; simp at h2
    · rw [hp']; exact h2

/-! ## the whole factorization -/

/-- a single factor is irreducible -/
def Irr1 (l : List (PV Mono ℤ × ℕ)) : Prop := ∀ y, l = [y] → Irreducible (val y.1)

theorem Irr1.append {l m : List (PV Mono ℤ × ℕ)} (hl : Irr1 l) (hm : Irr1 m) : Irr1 (l ++ m) := by
  intro y hy
  rcases List.append_eq_singleton_iff.1 hy with ⟨_, h⟩ | ⟨h, _⟩
  · exact hm y h
  · exact hl y h

theorem Irr1.of_all {l : List (PV Mono ℤ × ℕ)} (h : ∀ y ∈ l, Irreducible (val y.1)) : Irr1 l := fun y hy => h y (by simp [hy])

theorem Irr1.nil : Irr1 [] := fun _ h => by simp at h

theorem emb_irreducible (v : Var) {u : Polynomial ℤ} (hu : Irreducible u) : Irreducible (emb v u) := by
  refine ⟨fun h => hu.not_isUnit ?_, fun A B e => ?_⟩
  · have := h.map (Factor.ret (R := ℤ))
    rwa [ret_emb] at this
  · have e0 : emb v u ≠ 0 := fun h => hu.ne_zero (by rw [← ret_emb v u, h, map_zero])
    have hA : A.vars ⊆ {v} := (vars_of_dvd ⟨B, e⟩ e0).trans (emb_vars v u)
    have hB : B.vars ⊆ {v} := (vars_of_dvd ⟨A, by rw [e, mul_comm]⟩ e0).trans (emb_vars v u)
    have h1 : u = Factor.ret A * Factor.ret B := by rw [← map_mul, ← e, ret_emb]
    rcases hu.isUnit_or_isUnit h1 with h | h
    · have := h.map (emb (R := ℤ) v)
      rw [emb_ret hA] at this
      exact .inl this
    · have := h.map (emb (R := ℤ) v)
      rw [emb_ret hB] at this
      exact .inr this

include ho hS hU hI in
/-- in one variable all factors are irreducible -/
theorem facLex_irr {multi : PV Mono ℤ → Run (ℤ × List (PV Mono ℤ × ℕ))} {F : PV Mono ℤ} (hF : In vc V N F)
    (hmulti : 1 < (val F).vars.card → Post (multi F) fun r => Irr1 r.2) : Post (facLex E multi F) fun r => Irr1 r.2 := by
  have M := lex_ord ho
  match F, hF with
  | [], hF => exact Post.ret Irr1.nil
  | t :: F', hF =>
    obtain ⟨F, e⟩ : ∃ F, F = t :: F' := ⟨_, rfl⟩
    unfold facLex
    dsimp only
    rw [← e] at hF hmulti ⊢
    refine Post.ite (fun hn => Post.ret Irr1.nil) fun hn => Post.ite (fun h1 => hmulti (by rwa [polyVars_eq M hF.ok] at h1)) fun h1 => ?_
    rw [polyVars_eq M hF.ok] at h1
    have hn' : (val F).vars ≠ ∅ := fun h => hn ((number_of_vars ho hF.ok).2 h)
    have hfv : pFirstVar F ≠ 0 := fun h => hn' ((first_zero ho hF.ok (hF.zero hS)).1 h)
    obtain ⟨f1, f2, _⟩ := first_spec ho hF.ok hfv
    have hmem : pFirstVar F ∈ (val F).vars := by
      by_contra hc
      rw [degreeOf_zero_iff.2 hc] at f2
      exact absurd f2 (by omega)
    have hv : (val F).vars ⊆ {pFirstVar F} := fun w hw => by
      rw [Finset.mem_singleton]
      exact Finset.card_le_one.1 (by omega) w hw _ hmem
    have hd := ret_natDegree _ hv (hF.deg (pFirstVar F))
    have hi := polyToUpoly_spec ho M hF.ok hv
    refine ((hU _ _ hi hd).and (hI _ _ hi hd)).bind fun r hr => Post.ret (Irr1.of_all fun y hy => ?_)
    obtain ⟨x, hx, rfl⟩ := List.mem_map.1 hy
    dsimp only
    rw [(upolyToPoly_spec ho (pFirstVar F) (is_of_canon (hr.1.2 x hx).1)).2]
    exact emb_irreducible _ (hr.2 x hx)

theorem Irr1.times {l : List (PV Mono ℤ × ℕ)} (h : Irr1 l) (k : ℕ) : Irr1 (times k l) := by
  intro y hy
  obtain ⟨x, rfl, rfl⟩ := List.map_eq_singleton_iff.1 hy
  exact h x rfl

include ho hS hU hI in
theorem addUni_irr {g : PV Mono ℤ} (hg : In vc V N g) (hc : (val g).vars.card ≤ 1) (k : ℕ) {s : ℤ × List (PV Mono ℤ × ℕ)} (hs : Irr1 s.2) : Post (addUni E k g s) fun s' => Irr1 s'.2 := by
  unfold addUni
  exact (facLex_irr ho hS hU hI hg fun h => absurd h (by omega)).bind fun r hr => Post.ret (hs.append (hr.times k))

include ho hE hS hU hI hprev hT hL hfac in
theorem addPart_irr {g : PV Mono ℤ} (hg : In vc V N g) (hp : isNumber g = false → ∃ x, Prm vc x (val g)) (k : ℕ) {s : ℤ × List (PV Mono ℤ × ℕ)} (hs : Irr1 s.2) :
    Post (addPart E facL g k s) fun s' => Irr1 s'.2 := by
  have M := lex_ord ho
  unfold addPart
  refine Post.ite (fun hn => Post.ret hs) fun hn => ?_
  obtain ⟨x, hx⟩ := hp (by simpa using hn)
  refine Post.ite (fun h1 => addUni_irr ho hS hU hI hg (by rwa [polyVars_eq M hg.ok] at h1) k hs) fun _ => ?_
  dsimp only
  rw [hE]
  obtain ⟨m1, m2, m3⟩ := extractMono_spec ho hg.ok
  obtain ⟨e, he⟩ : ∃ e, e = extractMono vc g := ⟨_, rfl⟩
  rw [← he] at m1 m2 m3 ⊢
  have hd : val e.1 ∣ val g := ⟨_, by rw [m3, mul_comm]⟩
  have he1 : In vc V N e.1 := hg.of_dvd hx.prim.ne_zero m1 hd
  have hs' : Irr1 (s.2 ++ e.2.map fun x => ([((⟨[(x.1, 1)], 1⟩ : Mono), (1 : ℤ))], x.2.toNat * k)) := hs.append <| Irr1.of_all fun y hy => by
    obtain ⟨z, hz, rfl⟩ := List.mem_map.1 hy
    have : val [((⟨[(z.1, 1)], 1⟩ : Mono), (1 : ℤ))] = X z.1 := by
      rw [val_cons, val_nil, add_zero]
      simp [expo, X]
    dsimp only
    rw [this]
    rw [← emb_X]
    exact emb_irreducible _ Polynomial.irreducible_X
  refine Post.ite (fun h1 => addUni_irr ho hS hU hI he1 (by rwa [polyVars_eq M m1] at h1) k hs') fun h1 => ?_
  have hx1 := hx.of_dvd hd
  obtain ⟨q1, q2, q3⟩ := makePos_spec m1
  have e0 : e.1 ≠ [] := fun h => hx1.prim.ne_zero (by rw [h, val_nil])
  have qd : val (makePos e.1) ∣ val e.1 := by rcases q2 with q | q <;> rw [q]; exact (neg_dvd).2 dvd_rfl
  have hx2 := hx1.of_dvd qd
  have hn2 : isNumber (makePos e.1) = false := by
    by_contra hc
    rw [Bool.not_eq_false, number_of_vars ho q1] at hc
    rw [polyVars_eq M m1] at h1
    have : (val e.1).vars = ∅ := by
      rcases q2 with q | q <;> rw [q] at hc
      · exact hc
      · rwa [vars_neg] at hc
    rw [this] at h1
    simp at h1
  refine (wangCore_irr ho hE hS hprev hT hU hI hL hfac (he1.of_dvd hx1.prim.ne_zero q1 qd) (q3 e0) hx2 hn2).bind fun fs hfs => Post.ret (hs'.append fun y hy => ?_)
  obtain ⟨h, rfl, rfl⟩ := List.map_eq_singleton_iff.1 hy
  exact hfs h rfl

include ho hE hS hU hI hprev hT hL hfac in
theorem addParts_irr : ∀ {t : List (PV Mono ℤ × ℕ)}, Parts vc V N t → ∀ s, Irr1 s.2 → Post (addParts E facL t s) fun s' => Irr1 s'.2 := by
  intro t
  induction t with
  | nil => intro _ s hs; exact Post.ret hs
  | cons y t ih =>
    intro h s hs
    unfold addParts
    obtain ⟨a1, a2, a3, a4⟩ := h.parts y (by simp)
    refine (addPart_irr ho hE hS hprev hT hU hI hL hfac a1 (fun _ => a4) y.2 hs).bind fun s1 hs1 => ?_
    exact ih ⟨fun x hx => h.parts x (by simp [hx]), (List.pairwise_cons.1 h.coprime).2⟩ _ hs1

variable (hsort : ∀ l, (E.sort l).Perm l)

include ho hE hS hU hI hprev hT hL hfac hsort in
theorem factorMulti_irr {f : PV Mono ℤ} (hf : In vc V N f) (h0 : f ≠ []) : Post (factorMulti E facL f) fun r => Irr1 r.2 := by
  have M := lex_ord ho
  refine ((factorMulti_spec ho hE hS hU hprev hT hL hsort (facL := facL) hf h0).and (Q := fun r => Irr1 r.2) ?_).mono fun r hr => hr.2
  unfold factorMulti
  rw [hE]
  refine (squarefreeFactorize_spec ho hS (gcdZ_spec' ho hS hprev hT E.fuel E.fuel) E.fuel E.fuel f hf).bind fun sqf hsqf => ?_
  rcases hsqf with ⟨e, _⟩ | ⟨_, c, t, rfl, ht⟩
  · exact absurd e h0
  have hok : ∀ s, Post (addParts E facL t s) fun s' => Irr1 s.2 → Irr1 s'.2 := fun s s0 r hr hs =>
    addParts_irr ho hE hS hprev hT hU hI hL hfac (t := t) ⟨fun x hx => by
      obtain ⟨b1, b2, b3, _⟩ := ht.parts x hx
      obtain ⟨v, v1, v2⟩ := ht.prm x hx
      exact ⟨b1, b2, b3, v, v1, v2⟩, ht.coprime⟩ s hs s0 r hr
  refine Post.bind (P := fun s : ℤ × List (PV Mono ℤ × ℕ) => Irr1 s.2) ?_ fun s hs => Post.ret ?_
  · unfold addParts
    refine (addPart_irr ho hE hS hprev hT hU hI hL hfac ht.inc (fun h => ?_) 1 (s := (1, [])) Irr1.nil).bind fun s1 hs1 => (hok s1).mono fun s2 h => h hs1
    rw [(number_of_vars ho ht.inc.ok).2 ht.const] at h; exact absurd h (by simp)
  · intro y hy
    have hp := hsort (s.2.map fun x => (makePos x.1, x.2))
    dsimp only at hy
    rw [hy] at hp
    obtain ⟨x, hx, rfl⟩ := List.map_eq_singleton_iff.1 (List.perm_singleton.1 hp.symm)
    have hi := hs x hx
    dsimp only
    have hs := makePos_sign x.1
    split at hs
    · rw [hs, C_neg, C_1, neg_one_mul] at hi; exact (Associated.refl _).neg_left.irreducible hi
    · rw [C_1, one_mul] at hs; rw [hs] at hi; exact hi

include ho hE hS hU hI hprev hT hL hsort in
/-- **`factorize`**: a single factor is irreducible -/
theorem factorN_irr (n : ℕ) {F : PV Mono ℤ} (hF : In vc V N F) : Post (factorN E n F) fun r => Irr1 r.2 := by
  match n with
  | 0 => exact Post.fail
  | n + 1 =>
    unfold factorN
    refine facLex_irr ho hS hU hI hF fun h => factorMulti_irr ho hE hS hprev hT hU hI hL (fun L hL' => ?_) hsort hF fun e => by rw [e, val_nil] at h; simp at h
    exact (factorN_spec ho hE hS hU hprev hT hL hsort n hL').mono fun r hr => hr.1

end

end Wang
end CLPoly
