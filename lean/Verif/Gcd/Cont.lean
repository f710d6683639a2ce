import Verif.Gcd.ModP
import Verif.Groebner.ZZSpec
import Mathlib.RingTheory.Polynomial.UniqueFactorization

/-! # Content of a multivariate polynomial; exact divisions -/

namespace CLPoly
namespace Mgcd
open Mono MvPolynomial Run
open Dense (IsGcd)

variable {vc : Var → Var → Bool}

/-- the polynomials considered: normal form, variables in `V`, degree at most `N` in each variable -/
structure In (vc : Var → Var → Bool) (V : Finset Var) (N : ℕ) (p : PV Mono ℤ) : Prop where
  ok : LP vc p
  vars : (val p).vars ⊆ V
  deg : ∀ w, (val p).degreeOf w ≤ N

/-- the sizes for which exponents fit into the packed words; the null variable (serial number 0) does not occur -/
structure Small (V : Finset Var) (N : ℕ) : Prop where
  zero : 0 ∉ V
  cap : (N : ℤ) < capLex V.card
  max : N < 2 ^ 63 - 1

theorem Small.total {V : Finset Var} {N : ℕ} (h : Small V N) : V.card * N < 2 ^ 63 := by
  have h1 := h.cap
  unfold capLex at h1
  split at h1
  · rename_i hc
    have := h.max
    calc V.card * N ≤ 1 * N := Nat.mul_le_mul_right _ hc
      _ < 2 ^ 63 := by omega
  · rename_i hc
    push Not at hc
    by_cases hb : 64 < V.card
    · rw [Nat.div_eq_of_lt hb] at h1
      have : N = 0 := by omega
      rw [this]; norm_num
    · have h32 : 64 / V.card ≤ 32 := by
        calc 64 / V.card ≤ 64 / 2 := Nat.div_le_div_left hc (by norm_num)
          _ = 32 := rfl
      have h3 : (N : ℤ) < 2 ^ 32 := lt_of_lt_of_le h1 (pow_le_pow_right₀ (by norm_num) h32)
      have h4 : N < 2 ^ 32 := by exact_mod_cast h3
      calc V.card * N ≤ 64 * 2 ^ 32 := Nat.mul_le_mul (by omega) h4.le
        _ < 2 ^ 63 := by norm_num

theorem capLex_anti {m n : ℕ} (h : m ≤ n) (hn : 0 < m) : capLex n ≤ capLex m := by
  unfold capLex
  by_cases h1 : m ≤ 1
  · rw [if_pos h1]
    by_cases h2 : n ≤ 1
    · rw [if_pos h2]
    · rw [if_neg h2]
      have h3 : 64 / n ≤ 32 := Nat.div_le_div_left (c := 2) (by omega) (by norm_num) |>.trans (by norm_num)
      exact pow_le_pow_right₀ (by norm_num) (by omega)
  · rw [if_neg h1, if_neg (by omega)]
    exact pow_le_pow_right₀ (by norm_num) (Nat.div_le_div_left h (by omega))

section
variable {V : Finset Var} {N : ℕ}

theorem In.nil : In vc V N [] := ⟨.nil, by simp [val_nil], by simp [val_nil]⟩

theorem In.of_dvd {p q : PV Mono ℤ} (hp : In vc V N p) (p0 : val p ≠ 0) (hq : LP vc q) (h : val q ∣ val p) : In vc V N q :=
  ⟨hq, (vars_of_dvd h p0).trans hp.vars, fun w => (degreeOf_le_of_dvd h p0).trans (hp.deg w)⟩

theorem In.of_coeff {p q : PV Mono ℤ} (hp : In vc V N p) (hq : LP vc q) {v : Var} {i : ℕ} (h : IsCoeff v i (val p) (val q)) : In vc V N q :=
  ⟨hq, h.vars_subset.trans hp.vars, fun w => h.degreeOf_le.trans (hp.deg w)⟩

theorem In.zero {p : PV Mono ℤ} (hS : Small V N) (hp : In vc V N p) : 0 ∉ (val p).vars := fun h => hS.zero (hp.vars h)

theorem In.deg63 (M : MonoOrd vc (lexGt vc)) (hS : Small V N) {p : PV Mono ℤ} (hp : In vc V N p) : ∀ t ∈ p, t.1.deg < 2 ^ 63 := by
  intro t ht
  have h1 := hp.ok.deg_le_total M ht
  have h2 : (val p).totalDegree ≤ V.card * N := by
    rw [totalDegree]
    refine Finset.sup_le fun s hs => ?_
    have hsub : s.support ⊆ V := fun w hw => hp.vars ((mem_vars w).2 ⟨s, hs, hw⟩)
    calc (s.sum fun _ e => e) ≤ ∑ w ∈ s.support, N := Finset.sum_le_sum fun w _ => (monomial_le_degreeOf w hs).trans (hp.deg w)
      _ = s.support.card * N := by rw [Finset.sum_const, smul_eq_mul]
      _ ≤ V.card * N := Nat.mul_le_mul_right _ (Finset.card_le_card hsub)
  have h3 := hS.total
  have h4 : ((val p).totalDegree : ℤ) < 2 ^ 63 := by exact_mod_cast lt_of_le_of_lt h2 h3
  omega

/-- exact division -/
theorem quoZ_exact (ho : VarOrd vc) (hS : Small V N) {p q h : PV Mono ℤ} (hp : In vc V N p) (hq : In vc V N q) (q0 : q ≠ []) (hh : LP vc h) (he : val p = val h * val q)
    {fuel : ℕ} {r : PV Mono ℤ} (hr : quoZ vc fuel p q = some r) : r = h := by
  have M := lex_ord ho
  obtain ⟨n, hn⟩ := polyDiv_exact (C := codeLex ℤ vc) (divc := coefDivZ) M coefDivZ_ok hp.ok hq.ok q0
    (fun h2 => plan_lex ho hp.ok hq.ok h2 ⟨hp.deg63 M hS, hq.deg63 M hS⟩) hh he
  have h' : polyDiv vc (codeLex ℤ vc) coefDivZ fuel p q = some (some r) := Option.join_eq_some_iff.1 hr
  have := polyDiv_mono h' n
  rw [hn (fuel + n) (by omega), Option.some.injEq, Option.some.injEq] at this
  exact this.symm

/-- the quotient by a divisor -/
theorem quoZ_dvd (ho : VarOrd vc) (hS : Small V N) {p q : PV Mono ℤ} (hp : In vc V N p) (p0 : val p ≠ 0) (hq : In vc V N q) (hd : val q ∣ val p)
    {fuel : ℕ} {r : PV Mono ℤ} (hr : quoZ vc fuel p q = some r) : In vc V N r ∧ val p = val r * val q := by
  have M := lex_ord ho
  obtain ⟨k, hk⟩ := hd
  obtain ⟨h, h1, h2⟩ := GB.exists_polyOK M k
  have q0 : q ≠ [] := by rintro rfl; rw [val_nil, zero_mul] at hk; exact p0 hk
  have he : val p = val h * val q := by rw [hk, h2, mul_comm]
  have := quoZ_exact ho hS hp hq q0 h1 he hr
  subst this
  exact ⟨hp.of_dvd p0 h1 ⟨val q, he⟩, he⟩

/-- the trial division -/
theorem quoRemZ_test (ho : VarOrd vc) (hS : Small V N) {p q : PV Mono ℤ} (hp : In vc V N p) (hq : LP vc q) (dq : ∀ t ∈ q, t.1.deg < 2 ^ 63) (q0 : q ≠ [])
    {fuel : ℕ} {r : PV Mono ℤ × PV Mono ℤ} (hr : quoRemZ vc fuel p q = some r) : r.2 = [] ↔ val q ∣ val p := by
  have M := lex_ord ho
  obtain ⟨n, Q, R', h1, h2, h3, h4⟩ := polyDivRem_test (C := codeLex ℤ vc) (divc := coefDivZ) M coefDivZ_ok hp.ok hq q0
    (fun h2 => plan_lex ho hp.ok hq h2 ⟨hp.deg63 M hS, dq⟩)
  have h' : polyDivRem vc (codeLex ℤ vc) coefDivZ fuel p q = some (some r) := Option.join_eq_some_iff.1 hr
  have := polyDivRem_mono h' n
  rw [h1 (fuel + n) (by omega), Option.some.injEq, Option.some.injEq] at this
  subst this
  constructor
  · intro hR; exact ⟨val Q, by rw [h3 hR, mul_comm]⟩
  · rintro ⟨k, hk⟩
    obtain ⟨h, g1, g2⟩ := GB.exists_polyOK M k
    exact (h4 h g1 (by rw [hk, g2, mul_comm])).2

/-- products -/
theorem polyMul_in (ho : VarOrd vc) (hS : Small V N) {p q : PV Mono ℤ} (hp : LP vc p) (hq : LP vc q) (p0 : val p ≠ 0) (q0 : val q ≠ 0) (vp : (val p).vars ⊆ V) (vq : (val q).vars ⊆ V)
    (hd : ∀ w, (val p * val q).degreeOf w ≤ N) : ∃ r, polyMul vc (codeLex ℤ vc) p q = some r ∧ LP vc r ∧ val r = val p * val q := by
  have M := lex_ord ho
  have p0' : p ≠ [] := fun h => p0 (by rw [h, val_nil])
  have q0' : q ≠ [] := fun h => q0 (by rw [h, val_nil])
  by_cases hl : p.length ≤ 1
  · exact polyMul_spec (codeLex_ok ho) hp hq (.inl hl)
  refine polyMul_spec (codeLex_ok ho) hp hq (.inr (.inr (mulFits_lex ho hp.monos hq.monos p0' q0' fun x hx y hy v => ?_)))
  have hx1 : degIn x.1 v ≤ (val p).degreeOf v := by
    rw [degIn_eq ho (hp.monos x hx).sorted]
    exact hp.exp_le M hx v
  have hy1 : degIn y.1 v ≤ (val q).degreeOf v := by
    rw [degIn_eq ho (hq.monos y hy).sorted]
    exact hq.exp_le M hy v
  have h1 := hd v
  rw [degreeOf_mul_dom p0 q0] at h1
  have h2 : polyVars p ∪ polyVars q ⊆ V := by
    rw [polyVars_eq M hp, polyVars_eq M hq]; exact Finset.union_subset vp vq
  have hpos : 0 < (polyVars p ∪ polyVars q).card := by
    have := two_terms_vars M hp (by omega)
    exact lt_of_lt_of_le this (Finset.card_le_card Finset.subset_union_left)
  have h3 := capLex_anti (Finset.card_le_card h2) hpos
  have h4 := hS.cap
  omega

end

/-! ## content -/

section
variable {p : PV Mono ℤ}

theorem first_all (ho : VarOrd vc) {R : Type*} [CommRing R] [DecidableEq R] {p : PV Mono R} (hp : LP vc p) (h0 : 0 ∉ (val p).vars) :
    Top vc (pFirstVar p) p ∧ pFirstDeg p = (val p).degreeOf (pFirstVar p) := by
  by_cases h : pFirstVar p = 0
  · have hv := (first_zero ho hp h0).1 h
    refine ⟨(top_iff ho hp).2 (by rw [hv]; simp), ?_⟩
    rw [h, degreeOf_zero_iff.2 h0]
    cases p with
    | nil => rfl
    | cons t p =>
      show firstDeg t.1 = 0
      unfold firstDeg
      cases hd : t.1.data with
      | nil => rfl
      | cons x l =>
        have := (mem_vars_iff ho hp).2 ⟨t, by simp, x, by rw [hd]; simp, rfl⟩
        rw [hv] at this; simp at this
  · have := first_spec ho hp h
    exact ⟨this.1, this.2.2⟩

theorem top_E (ho : VarOrd vc) {v : Var} {m : Mono} (hm : Valid vc m) (ht : TopM vc v m) : E m.data v = match m.data with | [] => 0 | x :: _ => if x.1 = v then x.2 else 0 := by
  have hs := hm.sorted
  cases hd : m.data with
  | nil => rfl
  | cons x l =>
    show E (x :: l) v = if x.1 = v then x.2 else 0
    rw [E_cons]
    have : E l v = 0 := by
      refine E_not_mem fun y hy e => ?_
      rw [hd] at hs
      have h1 := (List.pairwise_cons.1 hs).1 y hy
      rw [e] at h1
      rcases ht x (by rw [hd]; simp) with h2 | h2
      · rw [h2, ho.irrefl _ trivial] at h1; simp at h1
      · have := ho.trans _ _ _ trivial trivial trivial h1 h2
        rw [ho.irrefl _ trivial] at this; simp at this
    rw [this, add_zero]

theorem inBlock_iff (ho : VarOrd vc) {v : Var} {d : Int} {m : Mono} (hm : Valid vc m) (ht : TopM vc v m) : inBlock v d m = true ↔ E m.data v = d := by
  rw [top_E ho hm ht]
  unfold inBlock
  cases m.data with
  | nil => simp [eq_comm]
  | cons x l => by_cases h : x.1 = v <;> simp [h, eq_comm]

theorem blockDeg_eq (ho : VarOrd vc) {v : Var} {m : Mono} (hm : Valid vc m) (ht : TopM vc v m) : blockDeg v m = E m.data v := by
  rw [top_E ho hm ht]; rfl

theorem stripMain_eq (ho : VarOrd vc) {v : Var} {m : Mono} (hm : Valid vc m) (ht : TopM vc v m) : stripMain (E m.data v) m = changeVarDeg vc m v 0 := by
  have h := top_E ho hm ht
  unfold stripMain changeVarDeg
  cases hd : m.data with
  | nil => simp [changeData]
  | cons x l =>
    rw [hd] at h
    simp only at h
    unfold changeData
    by_cases hx : v = x.1
    · rw [if_pos hx.symm] at h
      have := hm.pos x (by rw [hd]; simp)
      rw [h, if_pos (by omega), if_pos hx]; simp
    · rw [if_neg (fun e => hx e.symm)] at h
      have hv := (ht x (by rw [hd]; simp)).resolve_left fun e => hx e.symm
      rw [h, if_neg (by simp), if_neg hx, if_pos hv]; simp

/-- what the recursive gcd has to satisfy -/
def GSpec (vc : Var → Var → Bool) (V : Finset Var) (N : ℕ) (gcd : PV Mono ℤ → PV Mono ℤ → Run (PV Mono ℤ)) : Prop :=
  ∀ a b, In vc V N a → In vc V N b → Post (gcd a b) fun r => In vc V N r ∧ IsGcd (val r) (val a) (val b)

variable {V : Finset Var} {N : ℕ}

theorem contLoop_spec (ho : VarOrd vc) {gcd : PV Mono ℤ → PV Mono ℤ → Run (PV Mono ℤ)} (hg : GSpec vc V N gcd) {F : PV Mono ℤ} (hF : In vc V N F) {v : Var} (ht : Top vc v F) {deg : ℕ}
    (hdeg : (val F).degreeOf v = deg) :
    ∀ (rest pre : PV Mono ℤ) (d : ℕ) (c tmp : PV Mono ℤ), F = pre ++ rest → tmp = (pre.filter fun t => E t.1.data v = d).map (fun t => (changeVarDeg vc t.1 v 0, t.2)) →
      (∀ t ∈ pre, (d : Int) ≤ E t.1.data v) → (∀ t ∈ rest, E t.1.data v ≤ d) →
      (d = deg ∨ In vc V N c ∧ ∀ e, e ∣ val c ↔ ∀ i, d < i → e ∣ (toU v (val F)).coeff i) →
      Post (contLoop gcd v deg rest d c tmp) fun r => In vc V N r ∧ ∀ e, e ∣ val r ↔ ∀ i, e ∣ (toU v (val F)).coeff i := by
  have M := lex_ord ho
  -- the end of a block
  have block : ∀ (rest pre : PV Mono ℤ) (d : ℕ) (c tmp : PV Mono ℤ), F = pre ++ rest → tmp = (pre.filter fun t => E t.1.data v = d).map (fun t => (changeVarDeg vc t.1 v 0, t.2)) →
      (∀ t ∈ rest, E t.1.data v < d) → (d = deg ∨ In vc V N c ∧ ∀ e, e ∣ val c ↔ ∀ i, d < i → e ∣ (toU v (val F)).coeff i) →
      Post (if (d : Int) = (deg : Int) then ret tmp else gcd c tmp) fun r => In vc V N r ∧ ∀ e, e ∣ val r ↔ ∀ i, d ≤ i → e ∣ (toU v (val F)).coeff i := by
    intro rest pre d c tmp hpre htmp hrest hc
    have hfil : F.filter (fun t => E t.1.data v = d) = pre.filter fun t => E t.1.data v = d := by
      rw [hpre, List.filter_append, (List.filter_eq_nil_iff.2 fun t ht => by have := hrest t ht; simp; omega : rest.filter (fun t => decide (E t.1.data v = d)) = []), List.append_nil]
    have htA : tmp = termsAt vc v d 0 F := by rw [htmp, termsAt, hfil]
    have okT : LP vc tmp := htA ▸ hF.ok.termsAt M v d le_rfl
    have cT : IsCoeff v d (val F) (val tmp) := htA ▸ isCoeff_termsAt ho hF.ok.monos v d
    have inT : In vc V N tmp := hF.of_coeff okT cT
    have eT := isCoeff_iff.1 cT
    refine Post.ite (fun hd => Post.ret ⟨inT, fun e => ?_⟩) fun hd => ?_
    · have hd' : d = deg := by exact_mod_cast hd
      constructor
      · intro h i hi
        rcases Nat.eq_or_lt_of_le hi with rfl | hi
        · rw [← eT]; exact h
        · rw [Polynomial.coeff_eq_zero_of_natDegree_lt (by rw [natDegree_toU, hdeg]; omega)]
          exact dvd_zero _
      · intro h; rw [eT]; exact h d le_rfl
    · have hc' := hc.resolve_left fun h => hd (by rw [h])
      refine Post.mono (hg c tmp hc'.1 inT) fun r hr => ⟨hr.1, fun e => ?_⟩
      constructor
      · intro h i hi
        rcases Nat.eq_or_lt_of_le hi with rfl | hi
        · rw [← eT]; exact h.trans hr.2.2.1
        · exact (hc'.2 e).1 (h.trans hr.2.1) i hi
      · intro h
        exact hr.2.2.2 e ((hc'.2 e).2 fun i hi => h i hi.le) (by rw [eT]; exact h d le_rfl)
  -- coefficients without terms vanish
  have gap : ∀ i : ℕ, (∀ t ∈ F, E t.1.data v ≠ i) → (toU v (val F)).coeff i = 0 := by
    intro i hi
    have h1 := isCoeff_iff.1 (isCoeff_termsAt ho hF.ok.monos v i)
    rw [← h1]
    have : termsAt vc v i 0 F = [] := by
      rw [termsAt, List.filter_eq_nil_iff.2, List.map_nil]
      intro t ht
      simpa using hi t ht
    rw [this, val_nil]
  intro rest
  induction rest with
  | nil =>
    intro pre d c tmp hpre htmp hge _ hc
    rw [contLoop]
    refine Post.mono (block [] pre d c tmp hpre htmp (by simp) hc) fun r hr => ⟨hr.1, fun e => ?_⟩
    rw [hr.2 e]
    constructor
    · intro h i
      by_cases hi : d ≤ i
      · exact h i hi
      · rw [gap i fun t ht => ?_]
        · exact dvd_zero _
        · rw [List.append_nil] at hpre
          have := hge t (hpre ▸ ht)
          omega
    · exact fun h i _ => h i
  | cons t rest ih =>
    intro pre d c tmp hpre htmp hge hle hc
    rw [contLoop]
    have htF : t ∈ F := by rw [hpre]; simp
    have hv := hF.ok.monos t htF
    have htop := ht t htF
    have hE0 := E_nonneg hv.pos v
    have hsort := lex_top_sorted ho hF.ok ht
    rw [hpre, List.pairwise_append, List.pairwise_cons] at hsort
    have hrest : ∀ u ∈ rest, E u.1.data v ≤ E t.1.data v := hsort.2.1.1
    by_cases hb : inBlock v d t.1 = true
    · rw [if_pos hb]
      have hE := (inBlock_iff ho hv htop).1 hb
      refine ih (pre ++ [t]) d c _ (by rw [hpre]; simp) ?_ ?_ ?_ hc
      · rw [List.filter_append, List.map_append, ← htmp]
        congr 1
        rw [List.filter_cons_of_pos (by simpa using hE), List.filter_nil, List.map_cons, List.map_nil, ← stripMain_eq ho hv htop, hE]
      · intro u hu
        rcases List.mem_append.1 hu with hu | hu
        · exact hge u hu
        · rw [List.mem_singleton.1 hu, hE]
      · exact fun u hu => hle u (List.mem_cons_of_mem _ hu)
    · rw [if_neg hb]
      have hlt : E t.1.data v < d := lt_of_le_of_ne (hle t (by simp)) fun e => hb ((inBlock_iff ho hv htop).2 e)
      obtain ⟨d', hd'⟩ : ∃ d' : ℕ, (d' : Int) = E t.1.data v := ⟨(E t.1.data v).toNat, by omega⟩
      rw [blockDeg_eq ho hv htop, ← hd']
      refine Post.bind (block (t :: rest) pre d c tmp hpre htmp (fun u hu => ?_) hc) fun c' hc' => ?_
      · rcases List.mem_cons.1 hu with rfl | hu
        · exact hlt
        · exact lt_of_le_of_lt (hrest u hu) hlt
      · refine ih (pre ++ [t]) d' c' _ (by rw [hpre]; simp) ?_ ?_ ?_ (.inr ⟨hc'.1, fun e => ?_⟩)
        · rw [List.filter_append, (List.filter_eq_nil_iff.2 fun u hu => by have := hge u hu; simp; omega : pre.filter (fun t => decide (E t.1.data v = d')) = []), List.nil_append, List.filter_cons_of_pos (by simp [hd']), List.filter_nil, List.map_cons, List.map_nil,
            ← stripMain_eq ho hv htop, hd']
        · intro u hu
          rcases List.mem_append.1 hu with hu | hu
          · have := hge u hu; omega
          · rw [List.mem_singleton.1 hu, hd']
        · intro u hu
          rw [hd']; exact hrest u hu
        · rw [hc'.2 e]
          constructor
          · intro h i hi
            by_cases hid : d ≤ i
            · exact h i hid
            · rw [gap i fun u hu => ?_]
              · exact dvd_zero _
              · rw [hpre] at hu
                rcases List.mem_append.1 hu with hu | hu
                · have := hge u hu; omega
                · rcases List.mem_cons.1 hu with rfl | hu
                  · omega
                  · have := hrest u hu; omega
          · intro h i hi
            exact h i (by omega)

/-- **`cont`** computes the content with respect to the first variable -/
theorem contWith_spec (ho : VarOrd vc) (hS : Small V N) {gcd : PV Mono ℤ → PV Mono ℤ → Run (PV Mono ℤ)} (hg : GSpec vc V N gcd) {F : PV Mono ℤ} (hF : In vc V N F) :
    Post (contWith gcd F) fun c => In vc V N c ∧ IsCont (pFirstVar F) (val F) (val c) := by
  have M := lex_ord ho
  obtain ⟨ht, hd⟩ := first_all ho hF.ok (hF.zero hS)
  unfold contWith
  rw [hd]
  refine Post.mono (contLoop_spec ho hg hF ht rfl F [] _ [] [] rfl rfl (by simp) (fun t ht => hF.ok.exp_le M ht _) (.inl rfl)) fun c hc => ⟨hc.1, ?_⟩
  have hdvd := (hc.2 (val c)).1 dvd_rfl
  by_cases h0 : val F = 0
  · have hz : val c = 0 := by
      have := (hc.2 0).2 fun i => by rw [h0, map_zero, Polynomial.coeff_zero]
      exact zero_dvd_iff.1 this
    rw [h0, hz]
    exact ⟨dvd_rfl, by simp, fun _ _ h => h⟩
  · have hfree : pFirstVar F ∉ (val c).vars := by
      refine free_of_dvd (hdvd ((val F).degreeOf (pFirstVar F))) (lcV_ne_zero h0) (free_coeff _ _ _)
    refine ⟨(free_dvd_iff hfree).2 hdvd, hfree, fun e he hd => (hc.2 e).2 ((free_dvd_iff he).1 hd)⟩

end

end Mgcd
end CLPoly
