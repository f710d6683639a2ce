import Verif.Charset.RegSqf

/-! # `rsd`: correctness of the results -/

namespace CLPoly
namespace Charset
open Mono MvPolynomial Mgcd

variable {ord : List Var}

/-- the variables of a subresultant -/
theorem sub_vars {x : Var} {f g s : MvPolynomial Var ℤ} {m l d : ℕ} {V : Finset Var} (hx : x ∈ V) (hf : f.vars ⊆ V) (hg : g.vars ⊆ V) (e : toU x s = Res.Sub (toU x f) (toU x g) m l d) :
    s.vars ⊆ V := by
  obtain ⟨s', h1, h2, -⟩ := Res.exists_sub x f g m l d
  rw [← h1] at e
  rw [toU_injective _ e]
  intro w hw
  by_cases hwx : w = x
  · rw [hwx]; exact hx
  by_contra hn
  have h3 := h2 w hwx
  rw [degreeOf_zero_iff.2 fun hm => hn (hf hm), degreeOf_zero_iff.2 fun hm => hn (hg hm), mul_zero, mul_zero, add_zero, Nat.le_zero, degreeOf_zero_iff] at h3
  exact h3 hw

/-- the chain of subresultants of `t` and `f`, computed in one or the other order, below the degree of `t` -/
structure LowCtx (ord : List Var) (j : ℕ) (t f : PV Mono ℤ) (L : List (PV Mono ℤ)) : Prop where
  ok : ∀ d, LP (varCustom ord) (L.getD d []) ∧ (val (L.getD d [])).vars ⊆ Lo ord (j + 1)
  eq : ∀ d, d ≤ (val f).degreeOf (lv ord j) → d < (val t).degreeOf (lv ord j) → ∃ e : ℕ, toU (lv ord j) (val (L.getD d [])) =
    (-1) ^ e * Res.Sub (toU (lv ord j) (val t)) (toU (lv ord j) (val f)) ((val t).degreeOf (lv ord j)) ((val f).degreeOf (lv ord j)) d
  high : ∀ d, d < (val t).degreeOf (lv ord j) → (val (L.getD d [])).degreeOf (lv ord j) = d → d ≤ (val f).degreeOf (lv ord j)

theorem SubCtx.lowCtx {j : ℕ} {t f : PV Mono ℤ} {L : List (PV Mono ℤ)} (h : SubCtx ord j t f L) : LowCtx ord j t f L := by
  refine ⟨fun d => ?_, fun d h1 h2 => ⟨0, by rw [pow_zero, one_mul]; exact (h.low h1).2⟩, fun d h1 h2 => ?_⟩
  · have h1 := h.hlm
    by_cases hd : d ≤ (val f).degreeOf (lv ord j)
    · exact ⟨(h.low hd).1, h.low_vars hd⟩
    by_cases h2 : d < (val t).degreeOf (lv ord j) - 1
    · rw [h.out.gap d (by omega) h2]
      exact ⟨PolyOK.nil, by rw [val_nil, vars_0]; simp⟩
    by_cases h3 : d = (val t).degreeOf (lv ord j) - 1
    · rw [h3, h.out.top']; exact ⟨h.hf, h.vf⟩
    by_cases h4 : d = (val t).degreeOf (lv ord j)
    · rw [h4, h.out.top]; exact ⟨h.ht, h.vt⟩
    · rw [List.getD_eq_default _ _ (by rw [h.out.len]; omega)]
      exact ⟨PolyOK.nil, by rw [val_nil, vars_0]; simp⟩
  · by_contra hc
    exact absurd (h.high (by omega) h1.le h2) (by omega)

theorem lowCtx_swap {j : ℕ} {t f : PV Mono ℤ} {L : List (PV Mono ℤ)} {u : ℕ} (ht : LP (varCustom ord) t) (hf : LP (varCustom ord) f)
    (vt : (val t).vars ⊆ Lo ord (j + 1)) (vf : (val f).vars ⊆ Lo ord (j + 1)) (hle : (val t).degreeOf (lv ord j) ≤ (val f).degreeOf (lv ord j))
    (hu : u = if (val t).degreeOf (lv ord j) < (val f).degreeOf (lv ord j) then (val f).degreeOf (lv ord j) else (val f).degreeOf (lv ord j) + 1)
    (h : SubOut (varCustom ord) (lv ord j) f t ((val f).degreeOf (lv ord j)) ((val t).degreeOf (lv ord j)) u L) : LowCtx ord j t f L := by
  have hlu : (val t).degreeOf (lv ord j) ≤ u - 1 := by split at hu <;> omega
  have hx : lv ord j ∈ Lo ord (j + 1) := mem_Lo.2 ⟨j, by omega, rfl⟩
  refine ⟨fun d => ?_, fun d h1 h2 => ⟨((val f).degreeOf (lv ord j) - d) * ((val t).degreeOf (lv ord j) - d), ?_⟩, fun d h1 _ => by omega⟩
  · by_cases h1 : d < u - 1
    · by_cases h2 : d ≤ (val t).degreeOf (lv ord j)
      · exact ⟨h.ok d h2 h1, sub_vars hx vf vt (h.eq d h2 h1)⟩
      · rw [h.gap d (by omega) h1]
        exact ⟨PolyOK.nil, by rw [val_nil, vars_0]; simp⟩
    by_cases h3 : d = u - 1
    · rw [h3, h.top']; exact ⟨ht, vt⟩
    by_cases h4 : d = u
    · rw [h4, h.top]; exact ⟨hf, vf⟩
    · rw [List.getD_eq_default _ _ (by rw [h.len]; omega)]
      exact ⟨PolyOK.nil, by rw [val_nil, vars_0]; simp⟩
  · rw [h.eq d h2.le (by omega), Res.Sub_swap]

namespace LowCtx
variable {A : List (PV Mono ℤ)} {t f : PV Mono ℤ} {L : List (PV Mono ℤ)}

/-- the coefficient of an entry and the principal coefficient of the subresultant -/
theorem psc_zero {j : ℕ} (h : LowCtx ord j t f L) {K : Type*} [Field K] (a : Var → K) {d : ℕ} (h1 : d ≤ (val f).degreeOf (lv ord j)) (h2 : d < (val t).degreeOf (lv ord j)) :
    aeval a ((toU (lv ord j) (val (L.getD d []))).coeff d) = 0 ↔ psc a (lv ord j) (val t) (val f) d = 0 := by
  obtain ⟨e, he⟩ := h.eq d h1 h2
  have := congrArg (fun p => (p.map (ev a)).coeff d) he
  simp only [Polynomial.map_mul, Polynomial.map_pow, Polynomial.map_neg, Polynomial.map_one, Res.Sub_map] at this
  rw [Polynomial.coeff_map, show ((-1 : Polynomial K) ^ e) = Polynomial.C ((-1) ^ e) by simp, Polynomial.coeff_C_mul] at this
  unfold psc
  rw [show aeval a ((toU (lv ord j) (val (L.getD d []))).coeff d) = ev a ((toU (lv ord j) (val (L.getD d []))).coeff d) from rfl, this, mul_eq_zero]
  exact ⟨fun h => h.resolve_left (pow_ne_zero _ (by simp)), .inr⟩

theorem deg_le {j : ℕ} (h : LowCtx ord j t f L) {d : ℕ} (h1 : d ≤ (val f).degreeOf (lv ord j)) (h2 : d < (val t).degreeOf (lv ord j)) : (val (L.getD d [])).degreeOf (lv ord j) ≤ d := by
  obtain ⟨e, he⟩ := h.eq d h1 h2
  rw [← natDegree_toU, he, show ((-1 : Polynomial (MvPolynomial Var ℤ)) ^ e) = Polynomial.C ((-1) ^ e) by simp]
  exact (Polynomial.natDegree_C_mul_le _ _).trans (Res.Sub_natDegree (by rw [natDegree_toU]) (by rw [natDegree_toU]) h2.le h1 (by omega))

/-- the subresultant found is the greatest common divisor at all zeros of the chain -/
theorem first_gcd (hn : ord.Nodup) (hA : RA ord A) (ht : Lvl0 ord A t) (hreg : ∀ X : Fld, Reg X.K ord A t) (h : LowCtx ord A.length t f L) {s : PV Mono ℤ} {i : ℕ}
    (hfr : firstReg (varCustom ord) true (lv ord A.length) A L.zipIdx = ok2 (s, i)) (hi : i < (val t).degreeOf (lv ord A.length))
    (hne : ∀ (X : Fld) (a : Var → X.K), Zr A a → aeval a (val (pscOf i s)) ≠ 0) :
    LP (varCustom ord) s ∧ (val s).vars ⊆ Lo ord (A.length + 1) ∧ (val s).degreeOf (lv ord A.length) = i ∧
    ∀ (X : Fld) (a : Var → X.K), Zr A a → aeval a (toU (lv ord A.length) (val s)).leadingCoeff ≠ 0 ∧
      (toU (lv ord A.length) (val s)).map (ev a) ∣ (toU (lv ord A.length) (val t)).map (ev a) ∧ (aeval a (val s) = 0 ↔ aeval a (val t) = 0 ∧ aeval a (val f) = 0) := by
  have ho := varCustom_ord ord
  obtain ⟨-, -, f3, f4, f5⟩ := firstReg_spec hfr
  rw [Nat.sub_zero] at f3
  obtain ⟨s1, s2⟩ := h.ok i
  rw [← f3] at s1 s2
  have hsd : (val s).degreeOf (lv ord A.length) = i := by
    rw [degreeLex_spec ho s1] at f4; exact_mod_cast f4
  have hif := h.high i hi (f3 ▸ hsd)
  obtain ⟨p1, p2, p3⟩ := pscOf_spec hn ht.len s1 s2 hsd
  refine ⟨s1, s2, hsd, fun X a ha => ?_⟩
  have hlc : aeval a (toU (lv ord A.length) (val s)).leadingCoeff ≠ 0 := by rw [← p3]; exact hne X a ha
  refine ⟨hlc, ?_⟩
  have hz : ∀ i' < i, psc a (lv ord A.length) (val t) (val f) i' = 0 := by
    intro i' hi'
    have hle : i' ≤ (val f).degreeOf (lv ord A.length) := by omega
    have hlt : i' < (val t).degreeOf (lv ord A.length) := by omega
    rw [← h.psc_zero a hle hlt]
    obtain ⟨hok, hov⟩ := h.ok i'
    by_cases hr : (val (L.getD i' [])).degreeOf (lv ord A.length) = i'
    · have hrem := f5 i' (Nat.zero_le _) hi' (by rw [Nat.sub_zero, degreeLex_spec ho hok, hr])
      rw [Nat.sub_zero] at hrem
      obtain ⟨q1, q2, q3⟩ := pscOf_spec hn ht.len hok hov hr
      obtain ⟨r, e1, e2⟩ := remChain_out (K := X.K) hn (hA X) q1
      rw [hrem] at e1
      have := (e2 [] (Option.some.inj e1).symm).zero a ha
      rw [val_nil, map_zero, q3, Polynomial.leadingCoeff, natDegree_toU, hr] at this
      exact this.1 rfl
    · rw [Polynomial.coeff_eq_zero_of_natDegree_lt, map_zero]
      rw [natDegree_toU]
      exact lt_of_le_of_ne (h.deg_le hle hlt) hr
  have hQ : ((toU (lv ord A.length) (val f)).map (ev a)).natDegree ≤ (val f).degreeOf (lv ord A.length) := by
    rw [← natDegree_toU]; exact Polynomial.natDegree_map_le
  obtain ⟨g1, -, g3⟩ := Res.sub_root (ev_natDegree (hreg X a ha)) (ev_ne (hreg X a ha)) hQ hif hi.le (by omega) hz (by
    have h1 := (h.psc_zero a hif hi).not
    rw [← f3] at h1
    refine h1.1 ?_
    rw [Polynomial.leadingCoeff, natDegree_toU, hsd] at hlc
    exact hlc)
  obtain ⟨e, he⟩ := h.eq i hif hi
  rw [← f3] at he
  have hm : (toU (lv ord A.length) (val s)).map (ev a) = Polynomial.C ((-1) ^ e) * Res.Sub ((toU (lv ord A.length) (val t)).map (ev a)) ((toU (lv ord A.length) (val f)).map (ev a))
      ((val t).degreeOf (lv ord A.length)) ((val f).degreeOf (lv ord A.length)) i := by
    rw [he, Polynomial.map_mul, Res.Sub_map]
    simp
  have hu : IsUnit (Polynomial.C ((-1 : X.K) ^ e)) := Polynomial.isUnit_C.2 (isUnit_iff_ne_zero.2 (pow_ne_zero _ (by simp)))
  refine ⟨by rw [hm]; exact hu.mul_left_dvd.2 g1, ?_⟩
  have := g3 (a (lv ord A.length))
  rw [ev_eval, ev_eval] at this
  rw [← this, ← ev_eval a (lv ord A.length) (val s), hm, Polynomial.eval_mul, Polynomial.eval_C, mul_eq_zero]
  exact ⟨fun h => h.resolve_left (pow_ne_zero _ (by simp)), .inr⟩

/-- the last element is split into the common divisor and the quotient -/
theorem step (hn : ord.Nodup) (hA : RA ord A) (ht : Lvl0 ord A t) (hreg : ∀ X : Fld, Reg X.K ord A t) (h : LowCtx ord A.length t f L) {s f1 f2 : PV Mono ℤ} {i : ℕ}
    (hfr : firstReg (varCustom ord) true (lv ord A.length) A L.zipIdx = ok2 (s, i)) (hi : i < (val t).degreeOf (lv ord A.length))
    (hne : ∀ (X : Fld) (a : Var → X.K), Zr A a → aeval a (val (pscOf i s)) ≠ 0) (hcz : ∃ a : Var → ℂ, Zr A a ∧ aeval a (val t) = 0 ∧ aeval a (val f) = 0)
    (hf1 : remChain (varCustom ord) true A s = ok2 f1) (hf2 : pquoC (varCustom ord) true (lv ord A.length) t f1 = ok2 f2) :
    RA ord (A ++ [f1]) ∧ RA ord (A ++ [f2]) ∧ ∀ (X : Fld) (a : Var → X.K), Zr A a → (aeval a (val t) = 0 ↔ aeval a (val f2) = 0 ∨ aeval a (val f1) = 0) := by
  have ho := varCustom_ord ord
  obtain ⟨s1, s2, hsd, hg⟩ := h.first_gcd hn hA ht hreg hfr hi hne
  obtain ⟨a0, ha0, ht0, hf0⟩ := hcz
  have hi0 : i ≠ 0 := by
    intro hc
    have h1 := hne ⟨ℂ⟩ a0 ha0
    rw [show pscOf i s = s by unfold pscOf; rw [if_pos hc]] at h1
    exact h1 ((hg ⟨ℂ⟩ a0 ha0).2.2.2 ⟨ht0, hf0⟩)
  have hred : RedOut ℂ ord A s f1 := by
    obtain ⟨r, e1, e2⟩ := remChain_out (K := ℂ) hn (hA ⟨ℂ⟩) s1
    rw [hf1] at e1
    exact e2 f1 (Option.some.inj e1).symm
  have hscale := fun (X : Fld) => remChain_scale (K := X.K) hn ht.len (hA X) le_rfl s1 hf1
  have f1deg : (val f1).degreeOf (lv ord A.length) = i := by
    refine le_antisymm (hsd ▸ hred.deg _ le_rfl ht.len) ?_
    obtain ⟨c, c0, e⟩ := hscale ⟨ℂ⟩ a0 ha0
    have h1 := congrArg Polynomial.natDegree e
    rw [Polynomial.natDegree_C_mul c0, ev_natDegree (hg ⟨ℂ⟩ a0 ha0).1, hsd] at h1
    rw [← h1, ← natDegree_toU]
    exact Polynomial.natDegree_map_le
  have f1v : (val f1).vars ⊆ Lo ord (A.length + 1) := hred.vars _ (by omega) s2
  have f1lc : ∀ (X : Fld) (a : Var → X.K), Zr A a → aeval a (toU (lv ord A.length) (val f1)).leadingCoeff ≠ 0 := by
    intro X a ha
    obtain ⟨c, c0, e⟩ := hscale X a ha
    have h1 := congrArg (fun p => Polynomial.coeff p i) e
    simp only [Polynomial.coeff_map, Polynomial.coeff_C_mul] at h1
    have h2 := (hg X a ha).1
    rw [Polynomial.leadingCoeff, natDegree_toU, hsd] at h2
    rw [Polynomial.leadingCoeff, natDegree_toU, f1deg]
    intro h3
    rw [show (ev a) ((toU (lv ord A.length) (val f1)).coeff i) = 0 from h3, eq_comm, mul_eq_zero] at h1
    exact h1.elim c0 h2
  have hdvd : ∀ (X : Fld) (a : Var → X.K), Zr A a → (toU (lv ord A.length) (val f1)).map (ev a) ∣ (toU (lv ord A.length) (val t)).map (ev a) := by
    intro X a ha
    obtain ⟨c, c0, e⟩ := hscale X a ha
    rw [e]
    have hu : IsUnit (Polynomial.C c) := Polynomial.isUnit_C.2 (isUnit_iff_ne_zero.2 c0)
    exact hu.mul_left_dvd.2 (hg X a ha).2.1
  obtain ⟨r, e, hr⟩ := pquoC_spec ho (v := lv ord A.length) ht.ok hred.ok (by intro e; rw [e, val_nil, degreeOf_zero] at f1deg; omega)
  rw [hf2] at e
  obtain ⟨q1, S, -, hps⟩ := hr f2 (Option.some.inj e).symm
  obtain ⟨l1, l2, -⟩ := pquo_level (K := ℂ) hps rfl f1deg (by omega) hi.le
  have hq := fun (X : Fld) (a : Var → X.K) (ha : Zr A a) => (pquo_level (K := X.K) hps rfl f1deg (by omega) hi.le).2.2 a (f1lc X a ha) (hreg X a ha) (hdvd X a ha)
  refine ⟨fun X => add_s ht.len (hA X) rfl hred.ok f1v (by omega) fun a ha => f1lc X a ha,
    fun X => add_s ht.len (hA X) rfl q1 (l2 _ ht.vars f1v) (by omega) fun a ha => (hq X a ha).1, fun X a ha => (hq X a ha).2⟩

end LowCtx

/-- collecting two vectors -/
theorem Snd.collect2 {α β : Type} {f : α → O2 (List β × List β)} {Q : α → List β × List β → Prop} {l : List α} (h : ∀ a ∈ l, Snd (f a) (Q a)) : Snd (Charset.collect2 f l) (Coll Q l) := by
  induction l with
  | nil => exact Snd.ok ⟨by simp, by simp, by simp⟩
  | cons a l ih =>
    refine (h a (by simp)).bind fun x hx => (ih fun b hb => h b (List.mem_cons_of_mem _ hb)).bind fun y hy => Snd.ok ⟨?_, ?_, ?_⟩
    · intro b hb
      rcases List.mem_cons.1 hb with rfl | hb
      · exact ⟨x, hx, fun z hz => List.mem_append_left _ hz, fun z hz => List.mem_append_left _ hz⟩
      · obtain ⟨s, h1, h2, h3⟩ := hy.1 b hb
        exact ⟨s, h1, fun z hz => List.mem_append_right _ (h2 z hz), fun z hz => List.mem_append_right _ (h3 z hz)⟩
    · intro z hz
      rcases List.mem_append.1 hz with hz | hz
      · exact ⟨a, by simp, x, hx, hz⟩
      · obtain ⟨b, hb, s, h1, h2⟩ := hy.2.1 z hz
        exact ⟨b, List.mem_cons_of_mem _ hb, s, h1, h2⟩
    · intro z hz
      rcases List.mem_append.1 hz with hz | hz
      · exact ⟨a, by simp, x, hx, hz⟩
      · obtain ⟨b, hb, s, h1, h2⟩ := hy.2.2 z hz
        exact ⟨b, List.mem_cons_of_mem _ hb, s, h1, h2⟩

/-- the remainder of zero -/
theorem remChain_nil (hn : ord.Nodup) {K : Type*} [Field K] : ∀ {T : List (PV Mono ℤ)} {g : PV Mono ℤ}, RC K ord T → remChain (varCustom ord) true T [] = ok2 g → g = [] := by
  intro T
  induction T using List.reverseRecOn with
  | nil => intro g _ e; cases e; rfl
  | append_singleton T c ih =>
    intro g hT e
    have ho := varCustom_ord ord
    obtain ⟨hT', hc, -⟩ := RC.snoc.1 hT
    rw [remChain_snoc, (hc.num hn).2] at e
    obtain ⟨r, e1, hr⟩ := premD_spec ho (v := lv ord T.length) (G := []) PolyOK.nil hc.ok hc.ne
    rw [e1] at e
    cases r with
    | none => cases e
    | some S =>
      obtain ⟨h1, Q, -, hp⟩ := hr S rfl
      have := pseudo_trivial hp (by rw [val_nil, degreeOf_zero]; exact hc.deg_pos)
      rw [val_nil, h1.val_eq_zero (lex_ord ho)] at this
      subst this
      exact ih hT' e

set_option maxHeartbeats 2000000 in
/-- whatever `rsd` returns splits the zeros of the chain -/
theorem rsd_sound (hn : ord.Nodup) : ∀ (n : ℕ) (T : List (PV Mono ℤ)) (f : PV Mono ℤ), RA ord T → LP (varCustom ord) f → (val f).vars ⊆ Lo ord T.length →
    Snd (rsd ord true n T f) fun r => ∀ X : Fld, WOut X.K ord T f r := by
  intro n
  have ho := varCustom_ord ord
  induction n with
  | zero => intro T f _ _ _; exact Snd.none
  | succ n ih =>
    intro T f hT hf hv
    rw [rsd]
    dsimp only
    refine (Snd.self _).bind fun g hg => ?_
    have hgz : ∀ (X : Fld) (a : Var → X.K), Zr T a → (aeval a (val g) = 0 ↔ aeval a (val f) = 0) := by
      intro X a ha
      obtain ⟨r, e1, e2⟩ := remChain_out (K := X.K) hn (hT X) hf
      rw [hg] at e1
      exact (e2 g (Option.some.inj e1).symm).zero a ha
    by_cases hg0 : g = []
    · rw [if_pos hg0]
      have h0 : ∀ (X : Fld) (a : Var → X.K), Zr T a → aeval a (val f) = 0 := fun X a ha => (hgz X a ha).1 (by rw [hg0, val_nil, map_zero])
      exact Snd.ok fun X => wout_iff.2 ⟨Uni.single (hT X) rfl fun a => ⟨fun h => ⟨h, h0 X a h⟩, fun h => h.1⟩, Uni.nil fun a h => h.2 (h0 X a h.1)⟩
    rw [if_neg hg0]
    refine (((Conv.all fun X : Fld => iterResB_conv (K := X.K) hn hT.tc hf hv).and (iterResB_back (K := ℂ) hn (hT ⟨ℂ⟩) hf hv)).snd (fun h => iterResB_mono h _ _) n).bind fun r hr => ?_
    by_cases hr0 : r = []
    swap
    · rw [if_pos hr0]
      have hc : ∀ (X : Fld) (a : Var → X.K), Zr T a → aeval a (val f) ≠ 0 := fun X a ha => (hr.1 X).ne hr0 ha
      exact Snd.ok fun X => wout_iff.2 ⟨Uni.nil fun a h => hc X a h.1 h.2, Uni.single (hT X) rfl fun a => ⟨fun h => ⟨h, hc X a h⟩, fun h => h.1⟩⟩
    rw [if_neg (not_not.2 hr0)]
    obtain ⟨a0, hz0, hf0⟩ := hr.2 hr0
    have hnum : isNumber f = false := by
      by_contra hc
      rw [Bool.not_eq_false] at hc
      by_cases h0 : val f = 0
      · rw [(hf.val_eq_zero (lex_ord ho)).1 h0] at hg
        exact hg0 (remChain_nil hn (hT ⟨ℂ⟩) hg)
      · exact const_ne a0 ((num_iff ho hf).1 hc) h0 hf0
    obtain ⟨j, hj, ex, hvj, hmj⟩ := lo_first hn (hT ⟨ℂ⟩).1.len hf hv hnum
    have hjo : j < ord.length := lt_of_lt_of_le hj (hT ⟨ℂ⟩).1.len
    rw [ex, custN_lv hn hjo, if_neg (show ¬ T.length < j + 1 by omega)]
    by_cases hnl : j + 1 = T.length
    swap
    · rw [if_pos hnl]
      refine (ih (T.take (j + 1)) f (fun X => (hT X).take _) hf (by rw [List.length_take, min_eq_left (by omega)]; exact hvj)).bind fun W hW => Snd.ok fun X => ?_
      obtain ⟨W1, W2⟩ := wout_iff.1 (hW X)
      have hTX : RC X.K ord (T.take (j + 1) ++ T.drop (j + 1)) := by rw [List.take_append_drop]; exact hT X
      have k1 := W1.ext hTX rfl fun a ha => ha.1
      have k2 := W2.ext hTX rfl fun a ha => ha.1
      rw [List.take_append_drop] at k1 k2
      have hz : ∀ a : Var → X.K, Zr T a ↔ Zr (T.take (j + 1)) a ∧ Zr (T.drop (j + 1)) a := fun a => by rw [← Zr.append, List.take_append_drop]
      refine wout_iff.2 ⟨k1.congr fun a => ?_, k2.congr fun a => ?_⟩
      · rw [hz]; tauto
      · rw [hz]; tauto
    rw [if_neg (not_not.2 hnl), Nat.add_sub_cancel]
    obtain ⟨A, hAe⟩ : ∃ A, A = T.take j := ⟨_, rfl⟩
    have hlen : A.length = j := by rw [hAe, List.length_take]; omega
    obtain ⟨t, hte⟩ : ∃ t, t = T.getD j [] := ⟨_, rfl⟩
    have hTs : T = A ++ [t] := by
      have := getD_split (T := T) (n := j) (by omega)
      rw [List.drop_eq_nil_of_le (by omega)] at this
      rw [hAe, hte]; exact this
    rw [← hAe, ← hte]
    subst hlen
    clear hAe hte
    subst hTs
    obtain ⟨hA, hl, hreg⟩ := RA.snoc.1 hT
    have hx := (hl.num hn).2
    rw [hx]
    have hpd : pFirstDeg t = (((val t).degreeOf (lv ord A.length) : ℕ) : ℤ) := by
      obtain ⟨-, e⟩ := main_spec ho hl.ok (hl.num hn).1
      rw [hx] at e
      exact e
    rw [hpd, degreeLex_spec ho hf]
    have hfl : 1 ≤ (val f).degreeOf (lv ord A.length) := Nat.one_le_iff_ne_zero.2 fun e => degreeOf_zero_iff.1 e hmj
    have hctx : Snd (if (((val f).degreeOf (lv ord A.length) : ℕ) : ℤ) ≥ (((val t).degreeOf (lv ord A.length) : ℕ) : ℤ) then subC (varCustom ord) true n f t (lv ord A.length)
        else subC (varCustom ord) true n t f (lv ord A.length)) (LowCtx ord A.length t f) := by
      by_cases hc : (((val f).degreeOf (lv ord A.length) : ℕ) : ℤ) ≥ (((val t).degreeOf (lv ord A.length) : ℕ) : ℤ)
      · rw [if_pos hc]
        exact ((subC_conv ho hf hl.ok (lv ord A.length) rfl rfl hl.deg_pos (by omega) rfl).mono fun L hL => lowCtx_swap hl.ok hf hl.vars hvj (by omega) rfl hL).snd (fun h => subC_mono h _ _ _) n
      · rw [if_neg hc]
        refine ((subC_conv ho hl.ok hf (lv ord A.length) rfl rfl hfl (by omega) rfl).mono fun L hL => ?_).snd (fun h => subC_mono h _ _ _) n
        rw [if_pos (by omega)] at hL
        exact SubCtx.lowCtx ⟨hn, hl.len, hl.ok, hf, hl.vars, hvj, hfl, by omega, hL⟩
    refine hctx.bind fun L hL => (Snd.self _).bind fun ⟨s, i⟩ hfr => ?_
    dsimp only
    obtain ⟨-, -, f3, f4, -⟩ := firstReg_spec hfr
    rw [Nat.sub_zero] at f3
    obtain ⟨s1, s2⟩ := hL.ok i
    rw [← f3] at s1 s2
    have hsd : (val s).degreeOf (lv ord A.length) = i := by
      rw [degreeLex_spec ho s1] at f4; exact_mod_cast f4
    obtain ⟨p1, p2, p3⟩ := pscOf_spec hn hl.len s1 s2 hsd
    refine ((Conv.all fun X : Fld => iterResB_conv (K := X.K) hn hA.tc p1 p2).snd (fun h => iterResB_mono h _ _) n).bind fun r hr => ?_
    have hlT : (A ++ [t]).length = A.length + 1 := by simp
    by_cases hr0 : r = []
    · rw [if_neg (not_not.2 hr0)]
      refine (ih A _ hA p1 p2).bind fun W hW => ?_
      have hcol : ∀ {H : List (List (PV Mono ℤ))} {Z : ∀ X : Fld, (Var → X.K) → Prop}, (∀ X a, Z X a → Zr A a) → (∀ X : Fld, Uni X.K ord A.length (Z X) H) →
          Snd (collect2 (fun h => rsd ord true n (h ++ [t]) f) H) fun U => ∀ X : Fld, Uni X.K ord (A.length + 1) (fun a => (Z X a ∧ aeval a (val t) = 0) ∧ aeval a (val f) = 0) U.1 ∧
            Uni X.K ord (A.length + 1) (fun a => (Z X a ∧ aeval a (val t) = 0) ∧ aeval a (val f) ≠ 0) U.2 := by
        intro H Z hZ hH
        have hlen : ∀ g ∈ H, g.length = A.length := fun g hg => ((hH ⟨ℂ⟩).rc g hg).2
        have hg : ∀ g ∈ H, RA ord (g ++ [t]) := fun g hg X => ((hH X).rc g hg).1.replace (hT X) (hlen g hg) fun a ha => hZ X a (((hH X).zr a).1 ⟨g, hg, ha⟩)
        refine (Snd.collect2 (Q := fun g r => ∀ X : Fld, WOut X.K ord (g ++ [t]) f r) fun g hgm => ih _ f (hg g hgm) hf (by
          rw [List.length_append, List.length_singleton, hlen g hgm]; exact hvj)).mono fun U hU X => ?_
        obtain ⟨k1, k2⟩ := hU.uni (n' := A.length + 1) (P1 := fun a : Var → X.K => aeval a (val t) = 0 ∧ aeval a (val f) = 0) (P2 := fun a => aeval a (val t) = 0 ∧ aeval a (val f) ≠ 0) (hH X) fun g hgm s hs => by
          have := wout_iff.1 (hs X)
          rw [List.length_append, List.length_singleton, hlen g hgm] at this
          exact ⟨this.1.congr fun a => by rw [Zr.append, Zr.single]; tauto, this.2.congr fun a => by rw [Zr.append, Zr.single]; tauto⟩
        exact ⟨k1.congr fun a => by tauto, k2.congr fun a => by tauto⟩
      refine (hcol (Z := fun X a => Zr A a ∧ aeval a (val (pscOf i s)) = 0) (fun X a h => h.1) fun X => (wout_iff.1 (hW X)).1).bind fun U hU => ?_
      refine (hcol (Z := fun X a => Zr A a ∧ aeval a (val (pscOf i s)) ≠ 0) (fun X a h => h.1) fun X => (wout_iff.1 (hW X)).2).bind fun V hV => Snd.ok fun X => ?_
      rw [wout_iff, hlT]
      refine ⟨((hU X).1.append (hV X).1).congr fun a => ?_, ((hU X).2.append (hV X).2).congr fun a => ?_⟩
      · rw [Zr.append, Zr.single]; tauto
      · rw [Zr.append, Zr.single]; tauto
    · rw [if_pos hr0]
      by_cases hchk : (((val t).degreeOf (lv ord A.length) : ℕ) : ℤ) ≤ (i : ℤ)
      · rw [if_pos (by simp only [Bool.true_and, decide_eq_true_iff]; exact hchk)]; exact Snd.give
      rw [if_neg (by simp only [Bool.true_and, decide_eq_true_iff]; exact hchk)]
      refine (Snd.self _).bind fun f1 hf1 => (Snd.self _).bind fun f2 hf2 => ?_
      rw [Zr.append, Zr.single] at hz0
      obtain ⟨r1, r2, r3⟩ := hL.step hn hA hl hreg hfr (by omega) (fun X a ha => (hr X).ne hr0 ha) ⟨a0, hz0.1, hz0.2, hf0⟩ hf1 hf2
      refine (ih _ f r1 hf (by simpa using hvj)).bind fun W1 hW1 => (ih _ f r2 hf (by simpa using hvj)).bind fun W2 hW2 => Snd.ok fun X => ?_
      have k1 := wout_iff.1 (hW1 X)
      have k2 := wout_iff.1 (hW2 X)
      rw [List.length_append, List.length_singleton] at k1 k2
      rw [wout_iff, hlT]
      refine ⟨(k1.1.append k2.1).congr fun a => ?_, (k1.2.append k2.2).congr fun a => ?_⟩
      · rw [Zr.append, Zr.append, Zr.append, Zr.single, Zr.single, Zr.single]
        have := r3 X a
        tauto
      · rw [Zr.append, Zr.append, Zr.append, Zr.single, Zr.single, Zr.single]
        have := r3 X a
        tauto

end Charset
end CLPoly
