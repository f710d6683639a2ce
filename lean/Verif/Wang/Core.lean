import Verif.Wang.Sign
import Verif.Upoly.Comb

/-! # The product of the factors found by `__wang_core`, for any lifting -/

namespace CLPoly
namespace Wang
open Mono Mgcd Run Upoly Factor MvPolynomial

theorem Post.any {α : Type _} (m : Run α) : Post m fun _ => True := fun _ _ _ => trivial

section
variable {vc : Var → Var → Bool} {V : Finset Var} {N : ℕ}

/-- candidates: in normal form, with few variables and small degrees in total -/
structure Fits (vc : Var → Var → Bool) (V : Finset Var) (N : ℕ) (T : List (PV Mono ℤ)) : Prop where
  ok : ∀ h ∈ T, LP vc h ∧ (val h).vars ⊆ V
  deg : ∀ w, (T.map fun h => (val h).degreeOf w).sum ≤ N

theorem sum_sublist {α : Type*} (f : α → ℕ) {S T : List α} (h : S.Sublist T) : (S.map f).sum ≤ (T.map f).sum := by
  induction h with
  | slnil => simp
  | cons a h ih => simp only [List.map_cons, List.sum_cons]; omega
  | cons_cons a h ih => simp only [List.map_cons, List.sum_cons]; omega

theorem Fits.sublist {S T : List (PV Mono ℤ)} (h : Fits vc V N T) (hs : S.Sublist T) : Fits vc V N S :=
  ⟨fun x hx => h.ok x (hs.subset hx), fun w => (sum_sublist _ hs).trans (h.deg w)⟩

theorem Fits.in {T : List (PV Mono ℤ)} (h : Fits vc V N T) {x : PV Mono ℤ} (hx : x ∈ T) : In vc V N x :=
  ⟨(h.ok x hx).1, (h.ok x hx).2, fun w => (List.single_le_sum (by simp) _ (List.mem_map_of_mem (f := fun h : PV Mono ℤ => (val h).degreeOf w) hx)).trans (h.deg w)⟩

theorem dropIdx_sublist : ∀ (l : List ℕ) (T : List (PV Mono ℤ)), (dropIdx T l).Sublist T
  | [], T => List.Sublist.refl T
  | i :: l, T => (dropIdx_sublist l (T.eraseIdx i)).trans (List.eraseIdx_sublist T i)

/-- the polynomial is primitive with respect to its first variable `x` -/
structure Prm (vc : Var → Var → Bool) (x : Var) (G : MvPolynomial Var ℤ) : Prop where
  top : ∀ w ∈ G.vars, w = x ∨ vc x w = true
  prim : PrimWrt x G

theorem Prm.of_dvd {x : Var} {G H : MvPolynomial Var ℤ} (h : Prm vc x G) (hd : H ∣ G) : Prm vc x H :=
  ⟨fun w hw => h.top w (vars_of_dvd hd h.prim.ne_zero hw), h.prim.of_dvd hd⟩

variable (ho : VarOrd vc)

include ho in
/-- a divisor that is not a unit has `x` as its first variable -/
theorem Prm.first {x : Var} {h : PV Mono ℤ} (hh : LP vc h) (hp : Prm vc x (val h)) (hu : ¬ IsUnit (val h)) : pFirstVar h = x ∧ 0 < (val h).degreeOf x := by
  have h1 : 0 < (val h).degreeOf x := by
    by_contra hc
    exact hu (hp.prim _ (degreeOf_zero_iff.1 (by omega)) dvd_rfl)
  exact ⟨first_of_top ho hh ((top_iff ho hh).2 hp.top) h1, h1⟩

variable {E : Env} (hE : E.vc = vc) (hS : Small V N) (hprev : PrevOK E.prev) (hT : Tame E.strict V N E.prev)

include ho hE hS hprev hT in
theorem normFactor_in {h : PV Mono ℤ} (hh : In vc V N h) : Post (normFactor E h) fun q => In vc V N q ∧ (h ≠ [] → Pos q) := by
  subst hE
  have M := lex_ord ho
  have fin : ∀ q, In E.vc V N q → (h ≠ [] → q ≠ []) → In E.vc V N (makePos q) ∧ (h ≠ [] → Pos (makePos q)) := fun q hq h0 => by
    obtain ⟨a, b, c⟩ := makePos_spec hq.ok
    refine ⟨⟨a, ?_, ?_⟩, fun hne => c (h0 hne)⟩
    · rcases b with b | b <;> rw [b] <;> simpa using hq.vars
    · intro w; rcases b with b | b <;> rw [b] <;> simpa using hq.deg w
  unfold normFactor
  by_cases h0 : h = []
  · rw [h0]
    exact Post.ret ⟨In.nil, fun h => absurd rfl h⟩
  by_cases hn : isNumber h = true
  · unfold pp
    rw [if_neg h0, if_pos hn]
    exact Post.ret (fin _ ⟨polyOK_one, by rw [val_oneP]; simp, by rw [val_oneP]; simp⟩ fun _ => by simp)
  · refine (pp_spec ho hS hprev hT E.fuel hh h0 (by simpa using hn)).bind fun q hq => Post.ret (fin q hq.1 fun _ e => ?_)
    rw [e, val_nil] at hq
    obtain ⟨_, _, c, _, hc⟩ := hq
    rw [zero_mul] at hc
    exact h0 ((hh.ok.val_eq_zero M).1 hc)

include ho hE hS hprev hT in
theorem normFactor_dvd {h : PV Mono ℤ} (hh : In vc V N h) {x : Var} (hp : Prm vc x (val h)) :
    Post (normFactor E h) fun q => In vc V N q ∧ Pos q ∧ (val q = val h ∨ val q = -val h) := by
  subst hE
  have M := lex_ord ho
  have hne : val h ≠ 0 := hp.prim.ne_zero
  have h0 : h ≠ [] := fun e => hne (by rw [e, val_nil])
  have A := normFactor_in ho rfl hS hprev hT hh
  suffices Post (normFactor E h) fun q => val q = val h ∨ val q = -val h from
    (A.and this).mono fun q hq => ⟨hq.1.1, hq.1.2 h0, hq.2⟩
  have fin : ∀ q, LP E.vc q → (val q = val h ∨ val q = -val h) → val (makePos q) = val h ∨ val (makePos q) = -val h := fun q hq hv => by
    rcases (makePos_spec hq).2.1 with e | e <;> rw [e]
    · exact hv
    · rcases hv with e' | e' <;> rw [e']
      · exact .inr rfl
      · exact .inl (neg_neg _)
  unfold normFactor
  by_cases hu : IsUnit (val h)
  · have hn : isNumber h = true := (number_of_vars ho hh.ok).2 (unit_vars hu)
    unfold pp
    rw [if_neg h0, if_pos hn]
    refine Post.ret (fin _ polyOK_one ?_)
    rw [val_oneP]
    rcases unit_pm hu with e | e <;> rw [e]
    · exact .inl rfl
    · exact .inr (neg_neg _).symm
  · obtain ⟨f1, f2⟩ := hp.first ho hh.ok hu
    have hn : isNumber h = false := by
      by_contra hc
      rw [Bool.not_eq_false, number_of_vars ho hh.ok] at hc
      rw [degreeOf_zero_iff.2 (by rw [hc]; simp)] at f2
      omega
    refine (pp_spec ho hS hprev hT E.fuel hh h0 hn).bind fun q hq => Post.ret (fin q hq.1.ok ?_)
    obtain ⟨_, _, c, hc, e⟩ := hq
    rw [f1] at hc
    rcases unit_pm (hp.prim c hc ⟨val q, by rw [e, mul_comm]⟩) with k | k
    · left; rw [e, k, mul_one]
    · right; rw [e, k, mul_neg, mul_one, neg_neg]

include ho hE hS in
theorem prodSel_spec : ∀ (l : List (PV Mono ℤ)) (acc : PV Mono ℤ), Fits vc V N (acc :: l) → acc ≠ [] → (∀ h ∈ l, h ≠ []) →
    Post (prodSel E.vc acc l) fun p => In vc V N p ∧ p ≠ [] := by
  subst hE
  have M := lex_ord ho
  intro l
  induction l with
  | nil => intro acc h h0 _; exact Post.ret ⟨h.in (by simp), h0⟩
  | cons b l ih =>
    intro acc h h0 hl
    unfold prodSel
    have ha := h.ok acc (by simp)
    have hb := h.ok b (by simp)
    have a0 : val acc ≠ 0 := fun e => h0 ((ha.1.val_eq_zero M).1 e)
    have b0 : val b ≠ 0 := fun e => hl b (by simp) ((hb.1.val_eq_zero M).1 e)
    have hdeg : ∀ w, (val acc).degreeOf w + (val b).degreeOf w + (l.map fun h => (val h).degreeOf w).sum ≤ N := fun w => by
      have := h.deg w
      simp only [List.map_cons, List.sum_cons] at this
      omega
    obtain ⟨r, hr, hr1, hr2⟩ := polyMul_in ho hS ha.1 hb.1 a0 b0 ha.2 hb.2 fun w => by
      rw [degreeOf_mul_dom a0 b0]; have := hdeg w; omega
    rw [hr]
    refine (Post.lift (Q := fun a => a = r) fun a ha => (Option.some.inj ha).symm).bind fun a ea => ?_
    subst ea
    refine ih a ⟨fun x hx => ?_, fun w => ?_⟩ (fun e => ?_) fun x hx => hl x (by simp [hx])
    · rcases List.mem_cons.1 hx with rfl | hx
      · exact ⟨hr1, by rw [hr2]; exact (vars_mul _ _).trans (Finset.union_subset ha.2 hb.2)⟩
      · exact h.ok x (by simp [hx])
    · rw [List.map_cons, List.sum_cons, hr2, degreeOf_mul_dom a0 b0]
      exact hdeg w
    · rw [e, val_nil] at hr2
      exact mul_ne_zero a0 b0 hr2.symm

/-- the test of one subset: an exact factorization -/
def Split (vc : Var → Var → Bool) (V : Finset Var) (N : ℕ) (grem p q : PV Mono ℤ) : Prop :=
  In vc V N p ∧ In vc V N q ∧ Pos p ∧ Pos q ∧ isNumber p = false ∧ val grem = val p * val q

include ho hE hS hprev hT in
theorem trySubset_spec {grem : PV Mono ℤ} (hg : In vc V N grem) (hpos : Pos grem) {x : Var} (hp : Prm vc x (val grem)) {sel : List (PV Mono ℤ)} (hf : Fits vc V N sel) (h0 : ∀ h ∈ sel, h ≠ []) :
    Post (trySubset E grem sel) fun o => ∀ y, o = some y → Split vc V N grem y.1 y.2 := by
  have M := lex_ord ho
  match sel with
  | [] => exact Post.fail
  | h :: l =>
    unfold trySubset
    refine (prodSel_spec ho hE hS l h hf (h0 h (by simp)) fun y hy => h0 y (by simp [hy])).bind fun pr hpr => ?_
    refine (normFactor_in ho hE hS hprev hT hpr.1).bind fun prod hprod => ?_
    refine Post.ite (fun _ => Post.ret (by simp)) fun hc => ?_
    push Not at hc
    obtain ⟨c1, c2⟩ := hc
    have ppos := hprod.2 hpr.2
    have g0 : val grem ≠ 0 := hp.prim.ne_zero
    refine (Post.lift (Q := fun qr => qr.2 = [] → In vc V N qr.1 ∧ val prod ∣ val grem ∧ val grem = val qr.1 * val prod) fun qr hqr hr2 => ?_).bind fun qr hqr => ?_
    · rw [hE] at hqr
      have hd := (quoRemZ_test ho hS hg hprod.1.ok (hprod.1.deg63 M hS) c1 hqr).1 hr2
      obtain ⟨a, b⟩ := quoRemZ_dvd ho hS hg g0 hprod.1 hd hqr
      exact ⟨a, hd, b⟩
    · refine Post.ite (fun hc => ?_) fun _ => Post.ret (by simp)
      obtain ⟨a, b, e⟩ := hqr hc.1
      have qd : val qr.1 ∣ val grem := ⟨val prod, e⟩
      refine (normFactor_dvd ho hE hS hprev hT a (hp.of_dvd qd)).bind fun g' hg' => Post.ret ?_
      rintro _ ⟨⟩
      have qpos : Pos qr.1 := pos_of_mul M hprod.1.ok a.ok hg.ok (by rw [e, mul_comm]) hpos ppos
      have e' := pos_pm M hg'.1.ok a.ok hg'.2.1 qpos hg'.2.2
      exact ⟨hprod.1, hg'.1, ppos, hg'.2.1, by simpa using c2, by dsimp only; rw [e', e, mul_comm]⟩

include ho hE hS hprev hT in
theorem combLoop_spec {grem : PV Mono ℤ} (hg : In vc V N grem) (hpos : Pos grem) {x : Var} (hp : Prm vc x (val grem)) {T : List (PV Mono ℤ)} (hf : Fits vc V N T) (h0 : ∀ h ∈ T, h ≠ []) :
    ∀ (fuel : ℕ) (idx : List ℕ), Upoly.Valid T.length idx → Post (combLoop E grem T fuel idx) fun o => ∀ y, o = some y → Split vc V N grem y.2.1 y.2.2 := by
  intro fuel
  induction fuel with
  | zero => intro _ _; exact Post.fail
  | succ fuel ih =>
    intro idx hv
    unfold combLoop
    have hsub : (idx.reverse.map fun i => T.getD i []).Sublist T := (getD_map_reverse_sublist [] T hv le_rfl).trans (List.take_sublist _ _)
    refine (trySubset_spec ho hE hS hprev hT hg hpos hp (hf.sublist hsub) fun h hh => h0 h (hsub.subset hh)).bind fun o ho' => ?_
    match o, ho' with
    | some y, hy =>
      refine Post.ret ?_
      rintro _ ⟨⟩
      exact hy y rfl
    | none, _ =>
      dsimp only
      cases e : nextComb T.length idx with
      | none => exact Post.ret (by simp)
      | some idx' => exact ih idx' (nextComb_some e hv).1

/-- the factors verified so far and the rest -/
structure RecInv (vc : Var → Var → Bool) (V : Finset Var) (N : ℕ) (G : MvPolynomial Var ℤ) (ver : List (PV Mono ℤ)) (grem : PV Mono ℤ) : Prop where
  hg : In vc V N grem
  pos : Pos grem
  fac : ∀ h ∈ ver, In vc V N h ∧ Pos h ∧ isNumber h = false
  prod : (ver.map val).prod * val grem = G

theorem RecInv.prm {x : Var} {G : MvPolynomial Var ℤ} {ver : List (PV Mono ℤ)} {grem : PV Mono ℤ} (h : RecInv vc V N G ver grem) (hG : Prm vc x G) : Prm vc x (val grem) :=
  hG.of_dvd ⟨(ver.map val).prod, by rw [← h.prod, mul_comm]⟩

include ho hE hS hprev hT in
theorem recLoop_spec {x : Var} {G : MvPolynomial Var ℤ} (hG : Prm vc x G) : ∀ (fuel s : ℕ) (grem : PV Mono ℤ) (T ver : List (PV Mono ℤ)), RecInv vc V N G ver grem → Fits vc V N T → (∀ h ∈ T, h ≠ []) →
    Post (recLoop E fuel s grem T ver) fun r => RecInv vc V N G r.1 r.2.1 := by
  intro fuel
  induction fuel with
  | zero => intro _ _ _ _ _ _ _; exact Post.fail
  | succ fuel ih =>
    intro s grem T ver hI hf h0
    unfold recLoop
    refine Post.ite (fun hs => ?_) fun _ => Post.ret hI
    refine (combLoop_spec ho hE hS hprev hT hI.hg hI.pos (hI.prm hG) hf h0 _ _ ((range_rev_valid s).mono (by omega))).bind fun o ho' => ?_
    match o, ho' with
    | none, _ => exact ih _ _ _ _ hI hf h0
    | some y, hy =>
      obtain ⟨a, b, c, d, e, k⟩ := hy y rfl
      have hd := dropIdx_sublist y.1 T
      refine ih _ _ _ _ ⟨b, d, fun h hh => ?_, ?_⟩ (hf.sublist hd) fun h hh => h0 h (hd.subset hh)
      · rcases List.mem_append.1 hh with hh | hh
        · exact hI.fac h hh
        · rw [List.mem_singleton.1 hh]; exact ⟨a, c, e⟩
      · rw [← hI.prod, k, List.map_append, List.prod_append, List.map_singleton, List.prod_singleton, mul_assoc]

/-- **the factors of `G`**: not constant, positive first coefficients, product `G` -/
structure CoreOut (vc : Var → Var → Bool) (V : Finset Var) (N : ℕ) (G : MvPolynomial Var ℤ) (l : List (PV Mono ℤ)) : Prop where
  fac : ∀ h ∈ l, In vc V N h ∧ Pos h ∧ isNumber h = false
  prod : (l.map val).prod = G

include ho hE hS hprev hT in
theorem tryCands_spec {x : Var} {g : PV Mono ℤ} (hg : In vc V N g) (hpos : Pos g) (hG : Prm vc x (val g)) {cands : List (PV Mono ℤ)} (hf : Fits vc V N cands) :
    Post (tryCands E g cands) fun r => ∀ ver, r = some ver → 2 ≤ ver.length ∧ CoreOut vc V N (val g) ver := by
  have M := lex_ord ho
  unfold tryCands
  have hcode : Post (Charset.runMap (normFactor E) cands) (List.Forall₂ (fun h q => In vc V N q ∧ ∀ w, (val q).degreeOf w ≤ (val h).degreeOf w) cands) := by
    refine Charset.runMap_post fun h hh => ?_
    have hI := hf.in hh
    by_cases h0 : h = []
    · rw [h0]
      exact Post.bind (P := fun q => q = []) (by unfold pp; rw [if_pos rfl]; exact Post.ret rfl) fun q hq => Post.ret (by rw [hq]; exact ⟨In.nil, fun w => le_rfl⟩)
    · refine (normFactor_in ho hE hS hprev hT (V := V) (N := N) hI |>.and ?_)|>.mono fun q hq => ⟨hq.1.1, hq.2⟩
      -- the degrees do not grow
      have hne : val h ≠ 0 := fun e => h0 ((hI.ok.val_eq_zero M).1 e)
      have fin : ∀ q, LP vc q → (∀ w, (val q).degreeOf w ≤ (val h).degreeOf w) → ∀ w, (val (makePos q)).degreeOf w ≤ (val h).degreeOf w := fun q hq hd w => by
        rcases (makePos_spec hq).2.1 with e | e <;> rw [e] <;> simpa using hd w
      unfold normFactor
      by_cases hn : isNumber h = true
      · unfold pp
        rw [if_neg h0, if_pos hn]
        exact Post.ret (fin _ polyOK_one (by rw [val_oneP]; simp))
      · rw [hE]
        refine (pp_spec ho hS hprev hT E.fuel hI h0 (by simpa using hn)).bind fun q hq => Post.ret (fin q hq.1.ok fun w => ?_)
        obtain ⟨_, _, c, _, e⟩ := hq
        exact degreeOf_le_of_dvd ⟨c, e⟩ hne
  refine hcode.bind fun normed hn => ?_
  have hfn : Fits vc V N normed := by
    refine ⟨fun q hq => ?_, fun w => ?_⟩
    · have hh : In vc V N q := by
        clear hcode hf
        induction hn with
        | nil => simp at hq
        | cons h _ ih =>
          rcases List.mem_cons.1 hq with rfl | hq
          · exact h.1
          · exact ih hq
      exact ⟨hh.ok, hh.vars⟩
    · refine le_trans ?_ (hf.deg w)
      clear hf hcode
      induction hn with
      | nil => simp
      | cons h _ ih => simp only [List.map_cons, List.sum_cons]; exact Nat.add_le_add (h.2 w) ih
  refine (recLoop_spec ho hE hS hprev hT hG _ _ _ _ _ ⟨hg, hpos, by simp, by simp⟩ (hfn.sublist List.filter_sublist) fun h hh => ?_).bind fun r hr => ?_
  · have := (List.mem_filter.1 hh).2
    simp only [decide_eq_true_eq] at this
    exact this.1
  · refine Post.ite (fun _ => ?_) fun _ => Post.ret (by simp)
    have hp := hr.prm hG
    refine Post.bind (P := CoreOut vc V N (val g)) ?_ fun ver hver => Post.ite (fun hl => Post.ret ?_) fun _ => Post.ret (by simp)
    · refine Post.ite (fun hc => ?_) fun hc => Post.ret ?_
      · refine (normFactor_dvd ho hE hS hprev hT hr.hg hp).bind fun h hh => Post.ret ?_
        have e := pos_pm M hh.1.ok hr.hg.ok hh.2.1 hr.pos hh.2.2
        have hnum : isNumber h = false := by rw [hh.1.ok.ext M hr.hg.ok e]; exact hc.2
        rw [if_pos hnum]
        refine ⟨fun y hy => ?_, ?_⟩
        · rcases List.mem_append.1 hy with hy | hy
          · exact hr.fac y hy
          · rw [List.mem_singleton.1 hy]; exact ⟨hh.1, hh.2.1, hnum⟩
        · rw [List.map_append, List.prod_append, List.map_singleton, List.prod_singleton, e, hr.prod]
      · have hnum : isNumber r.2.1 = true := by
          by_contra h
          exact hc ⟨hr.pos.ne, by simpa using h⟩
        refine ⟨hr.fac, ?_⟩
        have hu := hp.prim _ (by rw [(number_of_vars ho hr.hg.ok).1 hnum]; simp) dvd_rfl
        have e : val r.2.1 = val [(Mono.one, (1 : ℤ))] := pos_pm M hr.hg.ok polyOK_one hr.pos ⟨_, _, rfl, by simp⟩ (by rw [val_oneP]; exact unit_pm hu)
        rw [val_oneP] at e
        rw [← hr.prod, e, mul_one]
    · rintro _ ⟨⟩
      exact ⟨hl, hver⟩

/-- the lifting returns polynomials that fit -/
def LiftFits (E : Env) (vc : Var → Var → Bool) (V : Finset Var) (N : ℕ) : Prop := ∀ g us α x c p, In vc V N g → Post (E.lift g us α x c p) (Fits vc V N)

variable (hL : LiftFits E vc V N) {facL : PV Mono ℤ → Run (ℤ × List (PV Mono ℤ × ℕ))} {x : Var} {g : PV Mono ℤ} (hg : In vc V N g) (hpos : Pos g) (hG : Prm vc x (val g))

include ho hE hS hprev hT hL hg hpos hG in
theorem batch_spec (y : Var) (p : ℕ) : ∀ n skip, Post (batch E facL g y p n skip) fun b => ∀ l, b = .found l → CoreOut vc V N (val g) l := by
  intro n
  induction n with
  | zero => intro _; exact Post.ret (by simp)
  | succ n ih =>
    intro skip
    unfold batch
    refine (Post.any _).bind fun α _ => (Post.any _).bind fun u _ => Post.ite (fun _ => Post.ret (by simp)) fun _ => ?_
    refine (hL g _ _ _ _ _ hg).bind fun cands hc => Post.ite (fun _ => ih _) fun _ => ?_
    refine (tryCands_spec ho hE hS hprev hT hg hpos hG hc).bind fun r hr => ?_
    match r, hr with
    | some ver, hr =>
      refine Post.ret ?_
      rintro _ ⟨⟩
      exact (hr ver rfl).2
    | none, _ => exact ih _

include ho hE hS hprev hT hL hg hpos hG in
theorem round_spec : ∀ vs, Post (round E facL g vs) fun r => ∀ l, r = .inl l → CoreOut vc V N (val g) l := by
  intro vs
  induction vs with
  | nil => exact Post.ret (by simp)
  | cons s vs ih =>
    have step : ∀ s' : VarSt, Post (bind (round E facL g vs) fun r => ret (r.map id (s' :: ·))) fun r => ∀ l, r = .inl l → CoreOut vc V N (val g) l := fun s' =>
      ih.bind fun r hr => Post.ret fun l hl => by
        cases r with
        | inl l' => rw [Sum.map_inl] at hl; cases hl; exact hr _ rfl
        | inr l' => simp at hl
    unfold round
    refine Post.ite (fun _ => step s) fun _ => (Post.any _).bind fun p _ => ?_
    refine (batch_spec ho hE hS hprev hT hL hg hpos hG s.x p 200 s.skip).bind fun b hb => ?_
    match b, hb with
    | .found l, hb =>
      refine Post.ret ?_
      rintro _ ⟨⟩
      exact hb l rfl
    | .dead, _ => exact step _
    | .out, _ => exact step _

theorem coreOut_single (hg : In vc V N g) (hpos : Pos g) (hn : isNumber g = false) : CoreOut vc V N (val g) [g] :=
  ⟨fun h hh => by rw [List.mem_singleton.1 hh]; exact ⟨hg, hpos, hn⟩, by simp⟩

include ho hE hS hprev hT hL hg hpos hG in
theorem rounds_spec (hn : isNumber g = false) : ∀ n vs, Post (rounds E facL g n vs) (CoreOut vc V N (val g)) := by
  intro n
  induction n with
  | zero => intro _; exact Post.fail
  | succ n ih =>
    intro vs
    unfold rounds
    refine (round_spec ho hE hS hprev hT hL hg hpos hG vs).bind fun r hr => ?_
    match r, hr with
    | .inl ver, hr => exact Post.ret (hr ver rfl)
    | .inr vs', _ => exact Post.ite (fun _ => Post.ret (coreOut_single hg hpos hn)) fun _ => ih vs'

include ho hE hS hprev hT hL hg hpos hG in
/-- **`__wang_core`**: the factors multiply to `g`, whatever the lifting returns -/
theorem wangCore_spec (hn : isNumber g = false) : Post (wangCore E facL g) (CoreOut vc V N (val g)) := by
  unfold wangCore
  exact Post.ite (fun _ => Post.ret (coreOut_single hg hpos hn)) fun _ => rounds_spec ho hE hS hprev hT hL hg hpos hG hn _ _

end

end Wang
end CLPoly
