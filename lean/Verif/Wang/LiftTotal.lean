import Verif.Wang.LiftComplete

/-!
# The lifting of one variable ends and makes none of the excluded events

Two variables, the main variable before the other one, degrees that fit into the packed words.
-/

namespace CLPoly
namespace Mtshl
open Mono Mgcd Run Upoly Factor Lift Wang Charset MvPolynomial

/-! ## total correctness; the argument is the fuel -/

/-- for enough fuel the computation ends without random numbers, with a value that satisfies `Q` -/
def Wp {α : Type _} (m : ℕ → Run α) (Q : α → Prop) : Prop := ∃ a, Q a ∧ ∃ N, ∀ n ≥ N, ∀ s, m n s = some (a, s)

section wp
variable {α β : Type _}

theorem Wp.ret {a : α} {Q : α → Prop} (h : Q a) : Wp (fun _ => Run.ret a) Q := ⟨a, h, 0, fun _ _ _ => rfl⟩

theorem Wp.bind {m : ℕ → Run α} {f : ℕ → α → Run β} {P : α → Prop} {Q : β → Prop} (hm : Wp m P) (hf : ∀ a, P a → Wp (fun n => f n a) Q) : Wp (fun n => Run.bind (m n) (f n)) Q := by
  obtain ⟨a, ha, N, h⟩ := hm
  obtain ⟨b, hb, N', h'⟩ := hf a ha
  refine ⟨b, hb, max N N', fun n hn s => ?_⟩
  show (m n s).bind _ = _
  rw [h n (le_trans (le_max_left _ _) hn)]
  exact h' n (le_trans (le_max_right _ _) hn) s

theorem Wp.mono {m : ℕ → Run α} {P Q : α → Prop} (hm : Wp m P) (h : ∀ a, P a → Q a) : Wp m Q := by
  obtain ⟨a, ha, N, h'⟩ := hm
  exact ⟨a, h a ha, N, h'⟩

theorem Wp.ite {c : Prop} [Decidable c] {m m' : ℕ → Run α} {Q : α → Prop} (h : c → Wp m Q) (h' : ¬ c → Wp m' Q) : Wp (fun n => if c then m n else m' n) Q := by
  by_cases hc : c
  · simpa only [if_pos hc] using h hc
  · simpa only [if_neg hc] using h' hc

theorem Wp.and_post {m : ℕ → Run α} {P Q : α → Prop} (hm : Wp m P) (h : ∀ n, Post (m n) Q) : Wp m fun a => P a ∧ Q a := by
  obtain ⟨a, ha, N, h'⟩ := hm
  exact ⟨a, ⟨ha, h N [] _ (h' N le_rfl [])⟩, N, h'⟩

theorem Wp.runMap {A B : Type} {f : ℕ → A → Run B} {P : A → B → Prop} : ∀ {l : List A}, (∀ a ∈ l, Wp (fun n => f n a) (P a)) → Wp (fun n => Charset.runMap (f n) l) fun r => List.Forall₂ P l r
  | [], _ => Wp.ret List.Forall₂.nil
  | a :: l, h => Wp.bind (h a (by simp)) fun _ hb => Wp.bind (Wp.runMap fun c hc => h c (by simp [hc])) fun _ hbs => Wp.ret (List.Forall₂.cons hb hbs)

end wp

section
variable {R : Type} [DecidableEq R] [CommRing R] [IsDomain R] {vc : Var → Var → Bool} (ho : VarOrd vc) {W : Finset Var}

include ho in
/-- the substitution of a variable that comes after the other ones leaves no zero -/
theorem assign_last {x : Var} {a : R} (hW : ∀ w ∈ W, w ≠ x → vc w x = true) {p : PV Mono R} (hp : OKIn vc W p) :
    PolyOK vc (lexGt vc) (assign vc (lexGt vc) (id : R → R) (fun v => if v = x then some a else none) p) := by
  have M := lex_ord ho
  obtain ⟨s, hs⟩ : ∃ s : Var → Option R, s = fun v => if v = x then some a else none := ⟨_, rfl⟩
  rw [← hs]
  have weak : ∀ {c b : Mono × R}, c ∈ p → b ∈ p → lexGt vc c.1 b.1 = true → (assignTerm (id : R → R) s c).1 = (assignTerm id s b).1 ∨ lexGt vc (assignTerm id s c).1 (assignTerm id s b).1 = true := by
    intro c b hc hb h
    have vcc := hp.1.monos c hc
    have vb := hp.1.monos b hb
    have ea : ∀ u, E (assignTerm (id : R → R) s c).1.data u = if (s u).isNone then E c.1.data u else 0 := E_filter_kept s _
    have eb : ∀ u, E (assignTerm (id : R → R) s b).1.data u = if (s u).isNone then E b.1.data u else 0 := E_filter_kept s _
    obtain ⟨u, h1, h2⟩ := (lexGt_iff ho vcc vb).1 h
    by_cases hu : u = x
    · left
      refine (assignTerm_valid (id : R → R) s vcc).ext ho (assignTerm_valid id s vb) fun w => ?_
      rw [ea, eb]
      by_cases hw : w = x
      · simp [hs, hw]
      · have hwn : (s w).isNone = true := by simp [hs, hw]
        rw [if_pos hwn, if_pos hwn]
        by_cases hwW : w ∈ W
        · exact (h2 w (by rw [hu]; exact hW w hwW hw)).symm
        · have z : ∀ t ∈ p, E t.1.data w = 0 := fun t ht => E_not_mem fun y hy e => hwW (e ▸ hp.mem ho ht hy)
          rw [z c hc, z b hb]
    · right
      have hun : (s u).isNone = true := by simp [hs, hu]
      rw [lexGt_iff ho (assignTerm_valid (id : R → R) s vcc) (assignTerm_valid id s vb)]
      refine ⟨u, by rw [ea, eb, if_pos hun, if_pos hun]; exact h1, fun w hw => ?_⟩
      rw [ea, eb, h2 w hw]
  obtain ⟨hp, _⟩ := hp
  cases p with
  | nil => exact .nil
  | cons t p =>
    have hw' := List.pairwise_cons.1 (hp.canon.1.imp_of_mem fun {a b} ha hb hab => weak ha hb hab)
    have := assignLoop_ok M (id : R → R) s p (fun t ht => hp.monos t (List.mem_cons_of_mem _ ht)) hw'.2 (assignTerm id s t) [] .nil
      (assignTerm_valid id s (hp.monos t (by simp))) (by simp) fun u hu => hw'.1 u hu
    show PolyOK vc (lexGt vc) (polyNormalize vc (lexGt vc) _)
    rw [polyNormalize_id M this]
    exact this

include ho in
theorem asg_wp {x : Var} {a : R} (hW : ∀ w ∈ W, w ≠ x → vc w x = true) {p : PV Mono R} (hp : OKIn vc W p) :
    Wp (fun _ => asg true vc x a p) fun r => OKIn vc (W.erase x) r ∧ val r = sub1 x a (val p) := by
  refine Wp.mono (Wp.and_post (P := fun _ => True) ⟨assign vc (lexGt vc) id (fun v => if v = x then some a else none) p, trivial, 0, fun n _ s => ?_⟩ fun _ => asg_in ho hp) fun r hr => hr.2
  unfold asg
  dsimp only
  rw [if_neg]
  · rfl
  rintro ⟨_, h⟩
  obtain ⟨t, ht, h⟩ := List.any_eq_true.1 h
  exact (assign_last ho hW hp).canon.2 t ht (of_decide_eq_true h)

variable {B : ℕ} (hB : (B : ℤ) ≤ capLex W.card)

include ho hB in
theorem mulN_wp {p q : PV Mono R} (hp : OKIn vc W p) (hq : OKIn vc W q) (hd : ∀ w, (val p).degreeOf w + (val q).degreeOf w < B) :
    Wp (fun _ => mulN true vc p q) fun r => OKIn vc W r ∧ val r = val p * val q := by
  classical
  have M := lex_ord ho
  have hcap : (B : ℤ) ≤ capLex ((val p).vars ∪ (val q).vars).card := hB.trans (capLex_anti (Finset.card_le_card (Finset.union_subset hp.2 hq.2)))
  have hd' : ∀ w, ((val p).degreeOf w + (val q).degreeOf w : ℤ) < capLex ((val p).vars ∪ (val q).vars).card := fun w => lt_of_lt_of_le (by exact_mod_cast hd w) hcap
  obtain ⟨out, h1, h2, h3⟩ := polyMul_spec (codeLex_ok (R := R) ho) hp.1 hq.1 (fits_lex_total ho hp.1 hq.1 hd')
  have hfit : fitsMul p q = true := by
    unfold fitsMul
    refine List.all_eq_true.2 fun t ht => List.all_eq_true.2 fun u hu => List.all_eq_true.2 fun z _ => decide_eq_true ?_
    rw [polyVars_eq M hp.1, polyVars_eq M hq.1, degIn_eq ho (hp.1.monos t ht).sorted, degIn_eq ho (hq.1.monos u hu).sorted]
    exact lt_of_le_of_lt (add_le_add (hp.1.exp_le M ht z.1) (hq.1.exp_le M hu z.1)) (hd' z.1)
  refine ⟨out, ⟨⟨h2, ?_⟩, h3⟩, 0, fun n _ s => ?_⟩
  · rw [h3]; exact (vars_mul _ _).trans (Finset.union_subset hp.2 hq.2)
  · unfold mulN
    rw [if_neg (by rw [hfit]; simp), h1]
    show some (nrm vc out, s) = _
    rw [nrm_id ho h2]

include ho hB in
theorem prodFrom_wp {M : ℕ} : ∀ {l : List (PV Mono R)} {acc : PV Mono R} {k : ℕ}, OKIn vc W acc → (∀ f ∈ l, OKIn vc W f ∧ ∀ w, (val f).degreeOf w ≤ M) → (∀ w, (val acc).degreeOf w ≤ k) → k + l.length * M < B →
    Wp (fun _ => prodFrom true vc acc l) fun _ => True
  | [], acc, k, _, _, _, _ => Wp.ret trivial
  | f :: l, acc, k, ha, hl, hk, hb => by
    obtain ⟨f1, f2⟩ := hl f (by simp)
    rw [List.length_cons, Nat.succ_mul] at hb
    refine Wp.bind (mulN_wp ho hB ha f1 fun w => ?_) fun r hr => prodFrom_wp (k := k + M) hr.1 (fun g hg => hl g (by simp [hg])) (fun w => ?_) (by omega)
    · have := f2 w; have := hk w; omega
    · rw [hr.2]
      have := f2 w; have := hk w
      exact (degreeOf_mul_le _ _ _).trans (by omega)

include ho hB in
theorem prodAll_wp {M : ℕ} {l : List (PV Mono R)} (hl : ∀ f ∈ l, OKIn vc W f ∧ ∀ w, (val f).degreeOf w ≤ M) (hb : l.length * M < B) :
    Wp (fun _ => prodAll true vc l) fun r => OKIn vc W r ∧ (l ≠ [] → val r = (l.map val).prod) := by
  refine Wp.mono (Wp.and_post (P := fun _ => True) ?_ fun _ => prodAll_spec ho l fun f hf => (hl f hf).1) fun r hr => hr.2
  cases l with
  | nil => exact Wp.ret trivial
  | cons f l =>
    rw [List.length_cons, Nat.succ_mul] at hb
    exact prodFrom_wp ho hB (M := M) (k := M) (hl f (by simp)).1 (fun g hg => hl g (by simp [hg])) (hl f (by simp)).2 (by omega)

end

theorem cap_two {W : Finset Var} (h : W.card ≤ 2) : ((2 ^ 32 : ℕ) : ℤ) ≤ capLex W.card := by
  have h3 : capLex 2 = 2 ^ 32 := by decide
  have h2 := capLex_anti h
  rw [h3] at h2
  exact_mod_cast h2

theorem totalDegree_le_sum {R : Type} [CommRing R] {W : Finset Var} {f : MvPolynomial Var R} (h : f.vars ⊆ W) {D : ℕ} (hD : ∀ w, f.degreeOf w ≤ D) : f.totalDegree ≤ W.card * D := by
  classical
  refine Finset.sup_le fun s hs => ?_
  have h1 : s.support ⊆ W := fun w hw => h ((mem_vars w).2 ⟨s, hs, hw⟩)
  rw [Finsupp.sum]
  calc ∑ w ∈ s.support, s w ≤ ∑ w ∈ s.support, D := Finset.sum_le_sum fun w _ => (monomial_le_degreeOf w hs).trans (hD w)
    _ = s.support.card * D := by rw [Finset.sum_const, smul_eq_mul]
    _ ≤ _ := Nat.mul_le_mul_right _ (Finset.card_le_card h1)

section
variable {R : Type} [DecidableEq R] [Field R] {vc : Var → Var → Bool} (ho : VarOrd vc) {W : Finset Var} (hW2 : W.card ≤ 2)

include ho hW2 in
theorem taylorCoeff_wp {x : Var} (hx : x ∈ W) (hW : ∀ w ∈ W, w ≠ x → vc w x = true) (a : R) (j : ℕ) {f : PV Mono R} {G : MvPolynomial Var R} (hf : OKIn vc W f) (hd : ∀ w, (val f).degreeOf w < 2 ^ 32)
    (e : val f = (X x - C a) ^ j * G) : Wp (fun n => taylorCoeff true vc n f x a j) fun r => OKIn vc (W.erase x) r ∧ val r = sub1 x a G := by
  refine Wp.mono (Wp.and_post (P := fun _ => True) ?_ fun n => taylorCoeff_exact ho hx a j hf e) fun r hr => hr.2
  unfold taylorCoeff
  refine Wp.ite (fun _ => Wp.ret trivial) fun _ => ?_
  have ht : (val f).totalDegree < 2 ^ 63 := by
    have h1 := totalDegree_le_sum hf.2 (D := 2 ^ 32) fun w => (hd w).le
    have h2 : W.card * 2 ^ 32 ≤ 2 * 2 ^ 32 := Nat.mul_le_mul_right _ hW2
    omega
  obtain ⟨N, Q, c, d1, _⟩ := divPow_total ho x a j hf.1 ht
  refine Wp.bind (P := fun g => OKIn vc W g ∧ val g = G) (Wp.mono (Wp.and_post (P := fun _ => True) ⟨Q, trivial, N, fun n hn s => d1 true n hn s⟩ fun n => divPow_exact ho hx a j hf e) fun r hr => hr.2) fun g hg => ?_
  exact (asg_wp ho hW hg.1).mono fun _ _ => trivial

include ho hW2 in
theorem addCorr_wp {xp : PV Mono R} (hxp : OKIn vc W xp) : ∀ {rs ds : List (PV Mono R)}, (∀ d ∈ ds, OKIn vc W d ∧ ∀ w, (val d).degreeOf w + (val xp).degreeOf w < 2 ^ 32) →
    Wp (fun _ => addCorr true vc xp rs ds) fun _ => True
  | [], _, _ => by unfold addCorr; exact Wp.ret trivial
  | _ :: _, [], _ => by unfold addCorr; exact Wp.ret trivial
  | r :: rs, d :: ds, h => by
    unfold addCorr
    refine Wp.bind (P := fun _ => True) (Wp.ite (fun _ => Wp.ret trivial) fun _ => ?_) fun r' _ => Wp.bind (addCorr_wp hxp fun e he => h e (by simp [he])) fun _ _ => Wp.ret trivial
    exact Wp.bind (mulN_wp ho (cap_two hW2) (h d (by simp)).1 hxp (h d (by simp)).2) fun _ _ => Wp.ret trivial

variable {x1 : Var} {α : Var → R} {x : Var} {a : R} {n : ℕ}

include ho in
/-- the solver in one variable ends -/
theorem mdpBase_wp {vs : List (Polynomial R)} (h2 : 2 ≤ vs.length) (h0 : ∀ v ∈ vs, v ≠ 0) (hc : Lift.Cop vs) {F : List (PV Mono R)} {c : PV Mono R} (hF : List.Forall₂ (Img vc x1 α {x1}) F vs) (hcI : OKIn vc {x1} c) :
    Wp (fun _ => mdpBase x1 F c) fun o => o ≠ none := by
  have M := lex_ord ho
  unfold mdpBase
  have hIs : List.Forall₂ Is (F.map polyToUpoly) vs := by
    rw [List.forall₂_map_left_iff]
    refine hF.imp fun f v h => ?_
    have := polyToUpoly_spec ho M h.1.1.1 h.1.1.2
    rwa [← evR_ret h.1.1.2 α, h.2] at this
  obtain ⟨r, P, k1, _⟩ := (univarMdp_spec hIs h2 h0 (polyToUpoly_spec ho M hcI.1 hcI.2)).1 (Or.inl hc)
  exact ⟨some (r.map (upolyToPoly x1)), by simp, 0, fun n _ s => by rw [k1]; rfl⟩

variable (hx : x ≠ x1) (hv : vc x1 x = true) (ha : a = α x) {us : List (MvPolynomial Var R × Polynomial R)} (h0 : ∀ u ∈ us, u.2 ≠ 0) (hc : Lift.Cop (us.map Prod.snd))
  (hU : ∀ u ∈ us, Tgt x1 α (insert x (insert x1 (keys ([] : List (Var × R))))) x n u) {M : ℕ} (hM : ∀ u ∈ us, u.2.natDegree ≤ M) (hn : n ≤ M) (h2 : 2 ≤ us.length) (hb : us.length * M < 2 ^ 32)

/-- the two variables -/
abbrev two (R : Type) (x x1 : Var) : Finset Var := insert x (insert x1 (keys ([] : List (Var × R))))

theorem two_card (x x1 : Var) : (two R x x1).card ≤ 2 := (Finset.card_insert_le _ _).trans (by simp [keys])

include hv in
theorem two_order : ∀ w ∈ two R x x1, w ≠ x → vc w x = true := fun w hw hne => by
  simp only [two, keys, List.map_nil, List.toFinset_nil, Finset.mem_insert, Finset.notMem_empty, or_false] at hw
  rw [hw.resolve_left hne]; exact hv

theorem degs_two {f : MvPolynomial Var R} (hf : f.vars ⊆ two R x x1) (h1 : f.degreeOf x ≤ M) (h2 : f.degreeOf x1 ≤ M) (w : Var) : f.degreeOf w ≤ M := by
  by_cases e1 : w = x
  · rw [e1]; exact h1
  by_cases e2 : w = x1
  · rw [e2]; exact h2
  rw [degreeOf_zero_iff.2 fun h => ?_]
  · exact Nat.zero_le _
  have := hf h
  simp only [two, keys, List.map_nil, List.toFinset_nil, Finset.mem_insert, Finset.notMem_empty, or_false] at this
  tauto

include hx ha hU hM hn in
theorem St.degs {k : ℕ} (hk : 0 < k) {F : List (PV Mono R)} (h : List.Forall₂ (St vc x1 (two R x x1) x a n k) F us) : ∀ f ∈ F, OKIn vc (two R x x1) f ∧ ∀ w, (val f).degreeOf w ≤ M := fun f hf => by
  obtain ⟨u, hu, hs⟩ := forall₂_mem_left h hf
  refine ⟨hs.ok, degs_two hs.ok.2 (hs.deg.trans hn) ?_⟩
  exact ((hs.img hk hx ha (hU u hu)).1.2).trans (hM u hu)

theorem degreeOf_prod_le {l : List (MvPolynomial Var R)} {w : Var} (h : ∀ f ∈ l, f.degreeOf w ≤ M) : l.prod.degreeOf w ≤ l.length * M := by
  induction l with
  | nil => rw [List.prod_nil, ← C_1, degreeOf_C]; exact Nat.zero_le _
  | cons f l ih =>
    rw [List.prod_cons, List.length_cons, Nat.succ_mul]
    have h1 := ih fun g hg => h g (by simp [hg])
    have h2 := h f (by simp)
    exact (degreeOf_mul_le _ _ _).trans (by omega)

include ho hx hv ha h0 hc hU hM hn h2 hb in
/-- the loop of `__mtshl_step_j` ends with the targets -/
theorem stepLoop_wp {ex : Bool} (p : ℕ) {aj : PV Mono R} (haj : OKIn vc (two R x x1) aj) (hprod : val aj = (us.map Prod.fst).prod)
    {Fb : List (PV Mono R)} (hFb : List.Forall₂ (Img vc x1 α (insert x1 (keys ([] : List (Var × R))))) Fb (us.map Prod.snd)) (hFv : Fb.map val = us.map fun u => sub1 x a u.1) :
    ∀ (m k : ℕ) {xp e : PV Mono R} {F : List (PV Mono R)} {forms : List (List Mono)}, 0 < k → n + 1 = k + m → OKIn vc {x} xp → val xp = (X x - C a) ^ (k - 1) → OKIn vc (two R x x1) e →
      val e = val aj - (F.map val).prod → List.Forall₂ (St vc x1 (two R x x1) x a n k) F us →
      Wp (fun fuel => stepLoop true ex vc fuel p x1 [] aj Fb x a m k xp e F forms) fun o => ∃ s, o = some s ∧ List.Forall₂ (fun r u => OKIn vc (two R x x1) r ∧ val r = u.1) s us := by
  intro m
  have hn' : (([] : List (Var × R)).map Prod.fst).Nodup := by simp
  have hα : ∀ y ∈ ([] : List (Var × R)), y.1 ≠ x1 ∧ y.2 = α y.1 := by simp
  have hxW : x ∉ insert x1 (keys ([] : List (Var × R))) := by simpa [keys] using hx
  have hM2 : M + M < 2 ^ 32 := by
    have : 2 * M ≤ us.length * M := Nat.mul_le_mul_right _ h2
    omega
  have hne : us ≠ [] := fun h => by rw [h] at h2; simp at h2
  have hW2 := two_card (R := R) x x1
  have ord := two_order (R := R) hv
  have hUd : ∀ w, ((us.map Prod.fst).prod).degreeOf w ≤ us.length * M := fun w => by
    refine (degreeOf_prod_le (M := M) fun f hf => ?_).trans (by rw [List.length_map])
    obtain ⟨u, hu, rfl⟩ := List.mem_map.1 hf
    exact degs_two (hU u hu).vars ((hU u hu).deg.trans hn) ((hU u hu).im.1.trans (hM u hu)) w
  induction m with
  | zero =>
    intro k xp e F forms hk hkm _ _ _ _ hF
    unfold stepLoop
    exact Wp.ret ⟨_, rfl, all_done hU (by omega) hF⟩
  | succ m ih =>
    intro k xp e F forms hk hkm hxp hxv he hev hF
    unfold stepLoop
    obtain ⟨l1, l2⟩ := linear_spec ho x a
    have hpow : (X x - C a : MvPolynomial Var R) ^ (k - 1) * (X x - C a) = (X x - C a) ^ k := by rw [← pow_succ]; congr 1; omega
    have lin_deg : ∀ (i : ℕ) (w : Var), ((X x - C a : MvPolynomial Var R) ^ i).degreeOf w ≤ i := fun i w => by
      refine (degreeOf_pow_le _ _ _).trans ?_
      by_cases h : w = x
      · rw [h, lin_degreeOf_self, mul_one]
      · rw [lin_degreeOf_ne h, mul_zero]; exact Nat.zero_le _
    refine Wp.bind (mulN_wp ho (W := {x}) (cap_two (by simp)) hxp l1 fun w => ?_) fun xp' hxp' => ?_
    · have h1 := lin_deg (k - 1) w
      have h2 := lin_deg 1 w
      rw [pow_one] at h2
      rw [hxv, l2]
      omega
    have hxv' : val xp' = (X x - C a) ^ k := by rw [hxp'.2, hxv, l2, hpow]
    obtain ⟨ds, hds, hd⟩ := choose_quot hF
    obtain ⟨Q, hQ⟩ := err_form hk hd
    have e1 : (ds.map fun d => d.1.1) = us.map Prod.fst := by rw [← hds, List.map_map]; rfl
    rw [e1, ← hprod, ← hev] at hQ
    obtain ⟨q1, q2, q3⟩ := quot_data hx ha hU hds hd
    have hFd := St.degs hx ha hU hM hn hk hF
    have hed : ∀ w, (val e).degreeOf w < 2 ^ 32 := fun w => by
      rw [hev]
      refine lt_of_le_of_lt ((degreeOf_sub_le _ _ _).trans (max_le (by rw [hprod]; exact hUd w) ?_)) hb
      refine (degreeOf_prod_le (M := M) fun f hf => ?_).trans (by rw [List.length_map, hF.length_eq])
      obtain ⟨g, hg, rfl⟩ := List.mem_map.1 hf
      exact (hFd g hg).2 w
    refine Wp.bind (taylorCoeff_wp ho hW2 (Finset.mem_insert_self x _) ord a k he hed hQ) fun ck hck => ?_
    rw [Finset.erase_insert hxW] at hck
    have hckv : val ck = comb (ds.map fun d => sub1 x a d.2) (us.map fun u => sub1 x a u.1) := by
      rw [hck.2, map_add, map_mul, sub1_lin, zero_mul, add_zero, comb_map, List.map_map, List.map_map]; rfl
    refine Wp.ite (fun h => ?_) fun _ => ?_
    · refine ih (k + 1) (by omega) (by omega) hxp'.1 (by rw [hxv']; rfl) he hev ?_
      exact zero_step hn' hα hx ha h0 hc hU hds hd (by rw [← hckv, h, val_nil])
    · have q4 : ∀ s ∈ ds.map (fun d => sub1 x a d.2), s.vars ⊆ insert x1 (keys ([] : List (Var × R))) := fun s hs => by
        obtain ⟨d, hd, rfl⟩ := List.mem_map.1 hs
        exact q3 d hd
      rw [← hFv] at hckv
      have h0' : ∀ v ∈ us.map Prod.snd, v ≠ 0 := fun v hv => by obtain ⟨u, hu, rfl⟩ := List.mem_map.1 hv; exact h0 u hu
      have h2' : 2 ≤ (us.map Prod.snd).length := by rw [List.length_map]; exact h2
      have hsolve := Wp.and_post (mdpBase_wp ho h2' h0' hc hFb hck.1) fun _ => mdpBase_ex ho h2' h0' hc Fb ck _ hFb hck.1 q2 q4 hckv
      refine Wp.bind (m := fun _ => mdpBase x1 Fb ck) hsolve fun o hσ => ?_
      match o, hσ with
      | none, hσ => exact absurd rfl hσ.1
      | some σ, hσ =>
        have hσ := hσ.2.2 σ rfl
        rw [List.forall₂_map_right_iff] at hσ
        have hB : List.Forall₂ (fun s d => (OKIn vc (two R x x1) s ∧ val s = sub1 x a d.2) ∧ Sml x1 (sub1 x a d.2) d.1.2) σ ds := by
          refine List.forall₂_iff_zip.2 ⟨hσ.length_eq, fun {s d} hsd => ?_⟩
          obtain ⟨t1, t2⟩ := (List.forall₂_iff_zip.1 hσ).2 hsd
          have hdm := (List.of_mem_zip hsd).2
          refine ⟨⟨⟨t1, by rw [t2]; exact (q3 d hdm).trans (Finset.subset_insert _ _)⟩, t2⟩, ?_⟩
          rw [← hds, List.map_map, List.forall₂_map_left_iff, List.forall₂_map_right_iff] at q2
          exact List.forall₂_same.1 q2 d hdm
        have hx1xp : (val xp').degreeOf x1 = 0 := by
          rw [hxv']
          exact Nat.le_zero.1 ((degreeOf_pow_le _ _ _).trans (by rw [lin_degreeOf_ne hx.symm, mul_zero]))
        have hcorr := addCorr_spec' ho (A := fun r d => St vc x1 (two R x x1) x a n k r d.1 ∧ d.1.1 - val r = (X x - C a) ^ k * d.2)
          (A' := fun r d => d ∈ ds → St vc x1 (two R x x1) x a n (k + 1) r d.1)
          (B := fun s d => (OKIn vc (two R x x1) s ∧ val s = sub1 x a d.2) ∧ Sml x1 (sub1 x a d.2) d.1.2) (hxp'.1.mono (by simp)) (fun r u h => h.1.ok) (fun d u h => h.1.1)
          (fun r s d r' hA hB h3 h4 hdm => ?_) hd hB
        · refine Wp.bind (Wp.and_post (addCorr_wp ho hW2 (hxp'.1.mono (by simp)) fun d hd' => ?_) fun _ => hcorr) fun F' hF' => ?_
          · obtain ⟨dd, hdm, hbb⟩ := forall₂_mem_left hB hd'
            refine ⟨hbb.1.1, fun w => ?_⟩
            have hdM : (val d).degreeOf w ≤ M := by
              rw [hbb.1.2]
              refine degs_two (x := x) ((q3 dd hdm).trans (Finset.subset_insert _ _)) ?_ ?_ w
              · rw [degreeOf_zero_iff.2 fun h => hxW (q3 dd hdm h)]; exact Nat.zero_le _
              · exact le_of_lt (lt_of_lt_of_le hbb.2 (hM dd.1 (hds ▸ List.mem_map_of_mem hdm)))
            have := lin_deg k w
            rw [hxv']
            omega
          have hF' := hF'.2
          have hF'2 : List.Forall₂ (St vc x1 (two R x x1) x a n (k + 1)) F' us := by
            rw [← hds, List.forall₂_map_right_iff]
            exact List.forall₂_iff_zip.2 ⟨hF'.length_eq, fun {r d} hrd => (List.forall₂_iff_zip.1 hF').2 hrd (List.of_mem_zip hrd).2⟩
          have hF'ne : F' ≠ [] := fun h => by rw [h, List.forall₂_nil_left_iff] at hF'2; exact hne hF'2
          refine Wp.bind (prodAll_wp ho (cap_two hW2) (M := M) (St.degs hx ha hU hM hn (by omega) hF'2) (by rw [hF'2.length_eq]; exact hb)) fun pr hpr => ?_
          obtain ⟨r1, r2⟩ := sub_in ho haj hpr.1
          rw [hpr.2 hF'ne] at r2
          dsimp only
          refine Wp.ite (fun h => Wp.ret ⟨_, rfl, ?_⟩) fun _ => ?_
          · rw [h, val_nil] at r2
            have := descend hn' hα hx ha h0 hc hU (F := F') (by rw [← hprod]; linear_combination -r2) n (k + 1) (by omega) hF'2
            exact all_done hU (by omega) this
          · exact ih (k + 1) (by omega) (by omega) hxp'.1 (by rw [hxv']; rfl) r1 r2 hF'2
        · have hsub : d.1.1 - val r' = (X x - C a) ^ k * (d.2 - sub1 x a d.2) := by rw [h4, hB.1.2, hxv']; linear_combination hA.2
          refine ⟨h3, ?_, ?_, ?_⟩
          · obtain ⟨q, hq⟩ := lin_dvd_sub x a d.2
            exact ⟨q, by rw [hsub, hq, pow_succ, mul_assoc]⟩
          · have : d.1.1 - val r' = (d.1.1 - val r) - val s * val xp' := by rw [h4]; ring
            rw [Sml, this]
            refine (degreeOf_sub_le _ _ _).trans_lt (max_lt hA.1.sml ((degreeOf_mul_le _ _ _).trans_lt ?_))
            rw [hx1xp, add_zero, hB.1.2]
            exact hB.2
          · rw [h4]
            refine (degreeOf_add_le _ _ _).trans (max_le hA.1.deg ((degreeOf_mul_le _ _ _).trans ?_))
            have h5 : (val s).degreeOf x = 0 := degreeOf_zero_iff.2 fun hxs => by
              rw [hB.1.2] at hxs
              exact hxW (q3 d hdm hxs)
            rw [h5, zero_add, hxv']
            exact (degreeOf_pow_le _ _ _).trans (by rw [lin_degreeOf_self, mul_one]; omega)

include ho hx in
/-- `lc_correct` ends -/
theorem lcCorrectAll_wp : ∀ {Gs Ts : List (PV Mono R)} {us : List (MvPolynomial Var R × Polynomial R)}, List.Forall₂ (fun G u => OKIn vc (insert x1 (keys ([] : List (Var × R)))) G ∧ (val G).degreeOf x1 ≤ M ∧ 0 < (val G).degreeOf x1) Gs us →
    List.Forall₂ (fun T u => OKIn vc (two R x x1) T ∧ ∀ w, (val T).degreeOf w ≤ M) Ts us → M + M < 2 ^ 32 → Wp (fun _ => lcCorrectAll true vc x1 Gs Ts) fun _ => True
  | [], _, _, _, _, _ => by unfold lcCorrectAll; exact Wp.ret trivial
  | _ :: _, [], _, _, _, _ => by unfold lcCorrectAll; exact Wp.ret trivial
  | G :: Gs, T :: Ts, [], h, _, _ => absurd h (by simp)
  | G :: Gs, T :: Ts, u :: us, h, h', hMM => by
    rw [List.forall₂_cons] at h h'
    unfold lcCorrectAll
    refine Wp.bind (P := fun _ => True) ?_ fun _ _ => Wp.bind (lcCorrectAll_wp h.2 h'.2 hMM) fun _ _ => Wp.ret trivial
    have Mo := lex_ord ho
    unfold lcCorrect
    refine Wp.ite (fun _ => Wp.ret trivial) fun _ => ?_
    dsimp only
    obtain ⟨_, l1, l2⟩ := leadIn_spec Mo h.1.1.1 x1
    obtain ⟨lc, hlc⟩ : ∃ lc, lc = (leadIn vc (lexGt vc) G x1).1 := ⟨_, rfl⟩
    rw [← hlc] at l1 l2 ⊢
    have hGW := h.1.1.mono (Finset.subset_insert x _)
    obtain ⟨s1, s2⟩ := sub_in ho h'.1.1 (q := lc) ⟨l1, l2.vars_subset.trans hGW.2⟩
    refine Wp.ite (fun _ => Wp.ret trivial) fun _ => ?_
    have hGd : ∀ w, (val G).degreeOf w ≤ M := degs_two hGW.2 (by
      rw [degreeOf_zero_iff.2 fun h' => ?_]
      · exact Nat.zero_le _
      have := h.1.1.2 h'
      simp [keys] at this
      exact hx this) h.1.2.1
    have hdeg : degreeLex vc G x1 = ((val G).degreeOf x1 : ℤ) := degreeLex_spec ho h.1.1.1 x1
    obtain ⟨d, hd⟩ : ∃ d, d = (val G).degreeOf x1 := ⟨_, rfl⟩
    rw [← hd] at hdeg
    have hvm : Valid vc (mkMono [(x1, degreeLex vc G x1)]) := mkMono_valid (List.pairwise_singleton _ _) (by rw [hdeg, hd]; simpa using h.1.2.2)
    have m1 : OKIn vc (two R x x1) [((mkMono [(x1, degreeLex vc G x1)] : Mono), (1 : R))] := OKIn_of_mem ho (PolyOK.single hvm one_ne_zero) fun t ht y hy => by
      rw [List.mem_singleton.1 ht] at hy
      simp [mkMono] at hy
      rw [hy]; simp [two]
    have m2 : val [((mkMono [(x1, degreeLex vc G x1)] : Mono), (1 : R))] = X x1 ^ d := by
      rw [val_cons, val_nil, add_zero]
      have : expo (mkMono [(x1, degreeLex vc G x1)]) = Finsupp.single x1 d := by
        have := powMono_expo x1 d
        rw [powMono, if_pos (by have := h.1.2.2; omega)] at this
        rw [← this, hdeg]
        congr 1
      rw [this, X_pow_eq_monomial]
    refine Wp.bind (mulN_wp ho (cap_two (two_card (R := R) x x1)) s1 m1 fun w => ?_) fun _ _ => Wp.ret trivial
    rw [s2, m2]
    have k1 := (degreeOf_sub_le w (val T) (val lc)).trans (max_le (h'.1.2 w) (l2.degreeOf_le.trans (hGd w)))
    have k2 : (X x1 ^ d : MvPolynomial Var R).degreeOf w ≤ M := by
      refine (degreeOf_pow_le _ _ _).trans ?_
      rw [degreeOf_X]
      have := h.1.2.1
      split <;> omega
    omega

include ho hx hv ha hc hU hM hn h2 hb in
/-- `__mtshl_step_j` ends with the targets -/
theorem stepJ_wp {ex : Bool} (p : ℕ) {aj : PV Mono R} (haj : OKIn vc (two R x x1) aj) (hprod : val aj = (us.map Prod.fst).prod) (hdeg : (degreeLex vc aj x).toNat = n) {F taus : List (PV Mono R)}
    (hF : List.Forall₂ (fun G u => OKIn vc (insert x1 (keys ([] : List (Var × R)))) G ∧ val G = sub1 x a u.1) F us)
    (hT : List.Forall₂ (fun T u => OKIn vc (two R x x1) T ∧ IsCoeff x1 u.2.natDegree u.1 (val T)) taus us) :
    Wp (fun fuel => stepJ true ex vc fuel p x1 [] aj F taus x a) fun o => ∃ s, o = some s ∧ List.Forall₂ (fun r u => OKIn vc (two R x x1) r ∧ val r = u.1) s us := by
  have hxW : x ∉ insert x1 (keys ([] : List (Var × R))) := by simpa [keys] using hx
  have h0 : ∀ u ∈ us, u.2 ≠ 0 := fun u hu e => by
    have := (hU u hu).pos
    rw [e, Polynomial.natDegree_zero] at this
    omega
  have hM2 : M + M < 2 ^ 32 := by
    have : 2 * M ≤ us.length * M := Nat.mul_le_mul_right _ h2
    omega
  have hne : us ≠ [] := fun h => by rw [h] at h2; simp at h2
  have hW2 := two_card (R := R) x x1
  have ord := two_order (R := R) hv
  unfold stepJ
  have hF0 : List.Forall₂ (fun G u => OKIn vc ((two R x x1).erase x) G ∧ val G = sub1 x a u.1 ∧ (val G).degreeOf x1 = u.2.natDegree) F us := by
    refine List.forall₂_iff_zip.2 ⟨hF.length_eq, fun {G u} hGu => ?_⟩
    obtain ⟨g1, g2⟩ := (List.forall₂_iff_zip.1 hF).2 hGu
    have ht := hU u (List.of_mem_zip hGu).2
    rw [Finset.erase_insert hxW]
    refine ⟨g1, g2, le_antisymm ?_ ?_⟩
    · rw [g2]; exact (sub1_degreeOf _ _ _ _).trans ht.im.1
    · rw [← ht.im.2, ← evR_sub1 hx ha, ← g2]; exact evR_natDegree_le _ _ _
  refine Wp.bind (Wp.and_post (lcCorrectAll_wp ho hx (M := M) (us := us) ?_ ?_ hM2) fun _ => lcCorrectAll_exact ho hx (by simp) hU hF0 hT) fun F1 hF1 => ?_
  · refine List.forall₂_iff_zip.2 ⟨hF.length_eq, fun {G u} hGu => ?_⟩
    obtain ⟨g1, g2, g3⟩ := (List.forall₂_iff_zip.1 hF0).2 hGu
    have hu := (List.of_mem_zip hGu).2
    rw [Finset.erase_insert hxW] at g1
    exact ⟨g1, by rw [g3]; exact hM u hu, by rw [g3]; exact (hU u hu).pos⟩
  · refine List.forall₂_iff_zip.2 ⟨hT.length_eq, fun {T u} hTu => ?_⟩
    obtain ⟨t1, t2⟩ := (List.forall₂_iff_zip.1 hT).2 hTu
    have hu := (List.of_mem_zip hTu).2
    exact ⟨t1, fun w => t2.degreeOf_le.trans (degs_two (hU u hu).vars ((hU u hu).deg.trans hn) ((hU u hu).im.1.trans (hM u hu)) w)⟩
  replace hF1 := hF1.2
  have hF1i : List.Forall₂ (Img vc x1 α (two R x x1)) F1 (us.map Prod.snd) := by
    rw [List.forall₂_map_right_iff]
    exact List.forall₂_iff_zip.2 ⟨hF1.length_eq, fun {r u} hru => ((List.forall₂_iff_zip.1 hF1).2 hru).img one_pos hx ha (hU u (List.of_mem_zip hru).2)⟩
  have hFd := St.degs hx ha hU hM hn one_pos hF1
  have hb1 : Wp (fun _ => runMap (asg true vc x a) F1) fun Fb => List.Forall₂ (fun f b => OKIn vc (insert x1 (keys ([] : List (Var × R)))) b ∧ val b = sub1 x a (val f)) F1 Fb := by
    refine Wp.runMap (f := fun _ => asg true vc x a) fun f hf => ?_
    have := asg_wp (a := a) ho ord (hFd f hf).1
    rwa [Finset.erase_insert hxW] at this
  have hb2 := imgs_asg ho hx ha hF1i
  rw [Finset.erase_insert hxW] at hb2
  refine Wp.bind (Wp.and_post hb1 fun _ => hb2) fun Fb hFb => ?_
  have hFv : Fb.map val = us.map fun u => sub1 x a u.1 := by
    have h1 := hFb.1
    clear hb1 hb2 hFb hF1i hT hF hF0 hU h0 hc hprod hne hFd hM h2 hb
    induction hF1 generalizing Fb with
    | nil => rw [List.forall₂_nil_left_iff] at h1; rw [h1]; rfl
    | cons hr _ ih =>
      rw [List.forall₂_cons_left_iff] at h1
      obtain ⟨b, Fb, hb, h1, rfl⟩ := h1
      rw [List.map_cons, List.map_cons, ih Fb h1, hb.2, hr.sub_eq one_pos]
  have hF1ne : F1 ≠ [] := fun h => by rw [h, List.forall₂_nil_left_iff] at hF1; exact hne hF1
  refine Wp.bind (prodAll_wp ho (cap_two hW2) (M := M) hFd (by rw [hF1.length_eq]; exact hb)) fun pr hpr => ?_
  obtain ⟨r1, r2⟩ := sub_in ho haj hpr.1
  rw [hpr.2 hF1ne] at r2
  rw [hdeg]
  refine stepLoop_wp ho hx hv ha h0 hc hU hM hn h2 hb p haj hprod hFb.2 hFv n 1 one_pos (by omega) one_okin ?_ r1 r2 hF1
  rw [val_cons, val_nil, add_zero, expo_one]
  simp

end

section
variable {p : ℕ} [Fact p.Prime] {vc : Var → Var → Bool} (ho : VarOrd vc)

theorem degreeOf_mz_le (H : MvPolynomial Var ℤ) (w : Var) : (mz (ZMod p) H).degreeOf w ≤ H.degreeOf w := by
  rw [← natDegree_toU, ← natDegree_toU, toU_mapC]
  exact Polynomial.natDegree_map_le

include ho in
/-- `__mtshl_lift` in two variables ends with the factors -/
theorem mtshlLift_wp {ex : Bool} {f : PV Mono ℤ} {vs : List (UPoly ℤ)} {taus : List (PV Mono ℤ)} {x1 y : Var} {b : ℤ} {Hs : List (MvPolynomial Var ℤ)} (hxy : y ≠ x1) (hv : vc x1 y = true)
    (hf : OKIn vc {x1, y} f) (hprod : val f = Hs.prod) (h2 : 2 ≤ Hs.length) (hvs : List.Forall₂ (fun v H => Is v (evalAt x1 (ptVal [(y, b)]) H)) vs Hs)
    (hH : ∀ H ∈ Hs, H.vars ⊆ {x1, y} ∧ 0 < H.degreeOf x1 ∧ (Wang.red p (evalAt x1 (ptVal [(y, b)]) H)).natDegree = H.degreeOf x1 ∧ ∀ s, 2 * |coeff s H| < p)
    (hT : List.Forall₂ (fun T H => OKIn vc {y} T ∧ IsCoeff x1 (H.degreeOf x1) H (val T)) taus Hs) (hcop : Lift.Cop (Hs.map fun H => Wang.red p (evalAt x1 (ptVal [(y, b)]) H)))
    (hb : ∀ w, Hs.length * (val f).degreeOf w < 2 ^ 32) :
    Wp (fun fuel => mtshlLift true ex vc fuel p f vs taus [(y, b)] x1) fun r => List.Forall₂ (fun h H => OKIn vc {x1, y} h ∧ val h = H) r Hs := by
  have M' := lex_ord ho
  unfold mtshlLift
  dsimp only
  have hsort : (([(y, b)] : List (Var × ℤ)).insertionSort fun a b => a.1 ≤ b.1) = [(y, b)] := rfl
  rw [hsort]
  simp only [List.map_cons, List.map_nil]
  have hpt : ptVal [(y, b)] y = b := by simp [ptVal]
  have hne : Hs ≠ [] := fun h => by rw [h] at h2; simp at h2
  have hf0 : val f ≠ 0 := by
    rw [hprod]
    refine List.prod_ne_zero fun h => ?_
    have := (hH 0 h).2.1
    rw [degreeOf_zero] at this
    omega
  obtain ⟨M, hM⟩ : ∃ M, M = max ((val f).degreeOf x1) ((val f).degreeOf y) := ⟨_, rfl⟩
  have hMb : Hs.length * M < 2 ^ 32 := by
    rcases max_choice ((val f).degreeOf x1) ((val f).degreeOf y) with h | h
    · rw [hM, h]; exact hb _
    · rw [hM, h]; exact hb _
  have hfM : ∀ w, (val f).degreeOf w ≤ M := fun w => by
    by_cases h1 : w = x1
    · rw [h1, hM]; exact le_max_left _ _
    by_cases h2 : w = y
    · rw [h2, hM]; exact le_max_right _ _
    rw [degreeOf_zero_iff.2 fun h => ?_]
    · exact Nat.zero_le _
    have := hf.2 h
    simp only [Finset.mem_insert, Finset.mem_singleton] at this
    tauto
  have hHM : ∀ H ∈ Hs, ∀ w, H.degreeOf w ≤ (val f).degreeOf w := fun H h w => degreeOf_le_of_dvd (by rw [hprod]; exact List.dvd_prod h) hf0
  obtain ⟨us, hus⟩ : ∃ us : List (MvPolynomial Var (ZMod p) × Polynomial (ZMod p)), us = Hs.map fun H => (mz (ZMod p) H, Wang.red p (evalAt x1 (ptVal [(y, b)]) H)) := ⟨_, rfl⟩
  have hmem : ∀ u ∈ us, ∃ H ∈ Hs, u = (mz (ZMod p) H, Wang.red p (evalAt x1 (ptVal [(y, b)]) H)) := fun u hu => by
    rw [hus] at hu
    obtain ⟨H, hH, rfl⟩ := List.mem_map.1 hu
    exact ⟨H, hH, rfl⟩
  have htwo : two (ZMod p) y x1 = {x1, y} := by
    ext w
    simp [two, keys, or_comm]
  have hk0 : insert x1 (keys ([] : List (Var × ZMod p))) = {x1} := by simp [keys]
  have hF0 : List.Forall₂ (fun (r : PV Mono (ZMod p)) u => OKIn vc (insert x1 (keys ([] : List (Var × ZMod p)))) r ∧ val r = sub1 y ((b : ℤ) : ZMod p) u.1) (vs.map (upToZp vc x1)) us := by
    rw [hus]
    exact lift_start ho (K := {y}) hvs (fun H h => ⟨(hH H h).1, (hH H h).2.2.1⟩) (ys := [(y, ((b : ℤ) : ZMod p))]) (by simp [keys]) (fun z hz => by
      rw [List.mem_singleton] at hz
      rw [hz, hpt]
      exact ⟨hxy, rfl⟩)
  obtain ⟨z1, z2⟩ := toZp_spec (R := ZMod p) ho hf
  have hlift : Wp (fun fuel => liftLoop true ex vc fuel p x1 f taus [] [(y, ((b : ℤ) : ZMod p))] (vs.map (upToZp vc x1))) fun o => ∃ s, o = some s ∧ List.Forall₂ (fun r u => OKIn vc (two (ZMod p) y x1) r ∧ val r = u.1) s us := by
    unfold liftLoop
    refine Wp.bind (P := fun aj => aj = (toZp vc f : PV Mono (ZMod p))) (Wp.ret rfl) fun aj haj => ?_
    subst haj
    refine Wp.bind (P := fun tz => List.Forall₂ (fun T t => t = (toZp vc T : PV Mono (ZMod p))) taus tz) (Wp.runMap (f := fun _ => asgPartial true vc []) fun T _ => Wp.ret rfl) fun tz htz => ?_
    have hTg : ∀ u ∈ us, Tgt x1 (fun w => ((ptVal [(y, b)] w : ℤ) : ZMod p)) (two (ZMod p) y x1) y ((degreeLex vc (toZp vc f : PV Mono (ZMod p)) y).toNat) u := fun u hu => by
      obtain ⟨H, hHm, rfl⟩ := hmem u hu
      have h0 : val (toZp vc f : PV Mono (ZMod p)) ≠ 0 := by
        rw [z2, hprod, map_list_prod]
        refine List.prod_ne_zero fun h => ?_
        obtain ⟨H', hH', e⟩ := List.mem_map.1 h
        have h1 := red_evalAt (p := p) x1 (ptVal [(y, b)]) H'
        have e : mz (ZMod p) H' = 0 := e
        rw [e, map_zero] at h1
        have h3 := (hH H' hH').2
        rw [← h1, Polynomial.natDegree_zero] at h3
        omega
      refine ⟨⟨(degreeOf_mz_le H x1).trans (hH H hHm).2.2.1.ge, red_evalAt _ _ _⟩, ?_, ?_, ?_⟩
      · dsimp only; rw [(hH H hHm).2.2.1]; exact (hH H hHm).2.1
      · rw [htwo]; exact (vars_map _ _).trans (hH H hHm).1
      · rw [degreeLex_spec ho z1.1, Int.toNat_natCast, z2, hprod]
        refine degreeOf_le_of_dvd (map_dvd _ (List.dvd_prod hHm)) ?_
        rw [← hprod, ← z2]; exact h0
    refine Wp.bind (stepJ_wp (R := ZMod p) (M := M) ho hxy hv (a := ((b : ℤ) : ZMod p)) (α := fun w => ((ptVal [(y, b)] w : ℤ) : ZMod p)) (by rw [hpt]) (us := us) ?_ hTg (fun u hu => ?_) ?_ ?_ ?_ p (by rw [htwo]; exact z1) ?_ rfl hF0 ?_) fun o ho' => ?_
    · rw [hus, List.map_map]; exact hcop
    · obtain ⟨H, hHm, rfl⟩ := hmem u hu
      dsimp only
      rw [(hH H hHm).2.2.1]; exact (hHM H hHm x1).trans (hfM x1)
    · rw [degreeLex_spec ho z1.1, Int.toNat_natCast, z2]
      exact (degreeOf_mz_le _ _).trans (hfM y)
    · rw [hus, List.length_map]; exact h2
    · rw [hus, List.length_map]; exact hMb
    · rw [z2, hprod, map_list_prod, hus, List.map_map]; rfl
    · rw [hus, List.forall₂_map_right_iff]
      refine List.forall₂_iff_get.2 ⟨htz.length_eq.symm.trans hT.length_eq, fun i i1 i2 => ?_⟩
      have i0 : i < taus.length := by rw [htz.length_eq]; exact i1
      have a1 := (List.forall₂_iff_get.1 htz).2 i i0 i1
      obtain ⟨b1, b2⟩ := (List.forall₂_iff_get.1 hT).2 i i0 i2
      obtain ⟨c1, c2⟩ := toZp_spec (R := ZMod p) ho b1
      rw [a1]
      refine ⟨c1.mono (by rw [htwo]; simp), ?_⟩
      dsimp only
      have e3 : (Wang.red p (evalAt x1 (ptVal [(y, b)]) (Hs.get ⟨i, i2⟩))).natDegree = (Hs.get ⟨i, i2⟩).degreeOf x1 := (hH _ (List.get_mem _ _)).2.2.1
      rw [e3, c2, isCoeff_iff, toU_mapC, Polynomial.coeff_map, ← isCoeff_iff.1 b2]
    · obtain ⟨s, rfl, hs⟩ := ho'
      exact Wp.ret ⟨s, rfl, hs⟩
  refine Wp.bind hlift fun o ho' => ?_
  obtain ⟨F, rfl, hF⟩ := ho'
  rw [hus, List.forall₂_map_right_iff, htwo] at hF
  have hres : List.Forall₂ (fun h H => OKIn vc {x1, y} h ∧ val h = H) (F.map (symPoly vc p)) Hs := by
    rw [List.forall₂_map_left_iff]
    refine List.forall₂_iff_zip.2 ⟨hF.length_eq, fun {g H} hgH => ?_⟩
    obtain ⟨g1, g2⟩ := (List.forall₂_iff_zip.1 hF).2 hgH
    exact symPoly_exact ho g1 g2 (hH H (List.of_mem_zip hgH).2).2.2.2
  have hne' : F.map (symPoly vc p) ≠ [] := fun h => by rw [h, List.forall₂_nil_left_iff] at hres; exact hne hres
  have hval : (F.map (symPoly vc p)).map val = Hs := map_of_forall₂ (hres.imp fun _ _ h => h.2)
  dsimp only
  refine Wp.ite (fun _ => Wp.ret hres) fun _ => ?_
  unfold padicLoop
  refine Wp.ite (fun _ => Wp.ret hres) fun _ => Wp.bind (prodAll_wp ho (W := {x1, y}) (cap_two (Finset.card_insert_le _ _)) (M := M) (fun h hh => ?_) ?_) fun pr hpr => ?_
  · obtain ⟨H, hHm, h1, h2⟩ := forall₂_mem_left hres hh
    exact ⟨h1, fun w => by rw [h2]; exact (hHM H hHm w).trans (hfM w)⟩
  · rw [hres.length_eq]; exact hMb
  · obtain ⟨r1, r2⟩ := sub_in ho hf hpr.1
    rw [hpr.2 hne', hval, hprod, sub_self] at r2
    dsimp only
    refine Wp.ite (fun _ => Wp.ret hres) fun h => absurd ((r1.1.val_eq_zero M').1 r2) h

end

end Mtshl
end CLPoly
