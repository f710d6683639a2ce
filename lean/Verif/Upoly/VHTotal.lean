import Verif.Upoly.VHL
import Verif.Upoly.Driver

/-! # The lattice recombination returns -/

namespace CLPoly
namespace Upoly
open Finset Polynomial

/-- one CLD polynomial: what it is, and that the assertion on the remainder holds for a divisor modulo `m` -/
theorem cldPoly_spec {m : ℤ} (hm : 1 < m) {f h : UPoly ℤ} {F H : ℤ[X]} (hf : Is f F) (hh : Is h H) (hH : H.Monic) :
    (∀ c, cldPoly m f h = some c → ∃ K, Is c K ∧ Cong m (H * K) (F * Polynomial.derivative H) ∧ ∀ i, -m < 2 * K.coeff i ∧ 2 * K.coeff i ≤ m) ∧ ((∃ Q, Cong m (H * Q) F) → cldPoly m f h ≠ none) := by
  have m0 : 0 < m := by omega
  obtain ⟨q, r, Q, R, e1, e2, e3, e4, e5, e6, e7⟩ := divModMod_spec hm hf hh hH.ne_zero (by rw [hH.leadingCoeff]; exact isCoprime_one_left)
  unfold cldPoly
  rw [e1, Option.bind_some]
  constructor
  · intro c hc
    split at hc
    · next hr =>
      cases hc
      have R0 : R = 0 := (is_nil_iff e3).1 hr
      rw [R0, add_zero] at e7
      obtain ⟨D, d1, _, d3, _⟩ := modCoeff_is m0 (derivative_is hh)
      obtain ⟨P, p1, _, p3, _⟩ := modCoeff_is m0 (mul_is e2 d1)
      obtain ⟨K, k1, k2⟩ := polySymMod_is m0 p1
      refine ⟨K, k1, ?_, fun i => ?_⟩
      · have hK : Cong m K P := Cong.iff_coeff.2 fun i => by rw [k2]; exact (symMod_spec _ m0).1
        have : Cong m (H * K) (H * (Q * Polynomial.derivative H)) := Cong.rfl'.mul (hK.trans (p3.trans (Cong.rfl'.mul d3)))
        refine this.trans ((Cong.of_eq ?_).trans (e7.mul .rfl'))
        ring
      · rw [k2]
        exact (symMod_spec _ m0).2
    · cases hc
  · rintro ⟨Q0, h0⟩
    rw [if_pos]
    · simp
    rw [is_nil_iff e3]
    obtain ⟨k, rfl⟩ := Int.eq_ofNat_of_zero_le m0.le
    have : Nontrivial (ZMod k) := by
      have : Fact (1 < k) := ⟨by exact_mod_cast hm⟩
      infer_instance
    have c1 := Cong.iff_map.1 (e7.trans h0.symm)
    by_contra hR
    have hne : R.map (Int.castRingHom (ZMod k)) ≠ 0 := fun h => hR (e5.eq (red_zero m0) (Cong.iff_map.2 (by rw [h, Polynomial.map_zero])))
    refine (hH.map (Int.castRingHom (ZMod k))).not_dvd_of_degree_lt hne ?_ ⟨(Q0 - Q).map (Int.castRingHom (ZMod k)), ?_⟩
    · rw [hH.degree_map]
      exact lt_of_le_of_lt degree_map_le e6
    · simp only [Polynomial.map_add, Polynomial.map_mul, Polynomial.map_sub] at c1 ⊢
      linear_combination c1

theorem cldPolys_total {m : ℤ} (hm : 1 < m) {f : UPoly ℤ} {F : ℤ[X]} (hf : Is f F) : ∀ {T : List (UPoly ℤ)}, (∀ t ∈ T, Canon comp t ∧ (toPoly t).Monic ∧ ∃ Q, Cong m (toPoly t * Q) F) → cldPolys m f T ≠ none
  | [], _ => by simp [cldPolys]
  | t :: T, h => by
    obtain ⟨h1, h2, h3⟩ := h t (by simp)
    obtain ⟨c, hc⟩ := Option.ne_none_iff_exists'.1 ((cldPoly_spec hm hf (is_of_canon h1) h2).2 h3)
    obtain ⟨l, hl⟩ := Option.ne_none_iff_exists'.1 (cldPolys_total (T := T) hm hf fun u hu => h u (List.mem_cons_of_mem _ hu))
    unfold cldPolys
    rw [hc, Option.bind_some, hl]
    simp

/-- nonsingular matrices -/
theorem lat_of_det {n : ℕ} {M : Mat} (h : (toM n M).det ≠ 0) : ∃ X S, 1 ≤ X ∧ Lat n M X S := by
  have g := gsInit_gs n M
  have hp := g.pos h
  refine ⟨1 + ∑ i ∈ range n, (gsInit n M).2 i, ∑ i ∈ range n, (gsInit n M).2 i, ?_, _, _, _, g, hp, fun i hi => ?_, le_rfl⟩
  · have : 0 ≤ ∑ i ∈ range n, (gsInit n M).2 i := sum_nonneg fun i hi => (hp i (mem_range.1 hi)).le
    linarith
  · have := single_le_sum (f := (gsInit n M).2) (fun i hi => (hp i (mem_range.1 hi)).le) (mem_range.2 hi)
    linarith

theorem det_of_lat {n : ℕ} {M : Mat} {X S : ℚ} (h : Lat n M X S) : (toM n M).det ≠ 0 := by
  obtain ⟨mu, B, bs, g, hp, _⟩ := h
  exact g.det_ne hp

theorem det_build {cld : List (UPoly ℤ)} {N t J : ℕ} {M : Mat} (h : (toM (cld.length + J) M).det ≠ 0) : (toM (cld.length + (buildLoop cld N t J M).2) (buildLoop cld N t J M).1).det ≠ 0 := by
  obtain ⟨X, S, h1, h2⟩ := lat_of_det h
  have := (lat_build cld N h1 t J M (S - J) (by rwa [sub_add_cancel])).2.2
  exact det_of_lat this

theorem det_lll {n : ℕ} (hn : 1 ≤ n) {M : Mat} (hd : (toM n M).det ≠ 0) {lf : ℕ} {B : ℤ} {r : Mat × Mat × List ℕ} (hr : lllReduce lf n M B = some r) : (toM n r.1).det ≠ 0 := by
  unfold lllReduce at hr
  rw [Option.map_eq_some_iff] at hr
  obtain ⟨s, h1, rfl⟩ := hr
  have := lllLoop_inv lf 1 _ s le_rfl hn (lllInit_inv hn hd) h1
  obtain ⟨bs, g⟩ := this.gs
  exact g.det_ne this.pos

theorem latRound_total {m : ℤ} (hm : 1 < m) {jt : ℕ} {f : UPoly ℤ} {F : ℤ[X]} (hf : Is f F) {T : List (UPoly ℤ)} (hl : 1 ≤ T.length) (hT : ∀ t ∈ T, Canon comp t) (hTm : ∀ t ∈ T, (toPoly t).Monic)
    (hc : Cong m (C F.leadingCoeff * (T.map toPoly).prod) F) {M : Mat} {J : ℕ} (hd : (toM (T.length + J) M).det ≠ 0) :
    ∃ lf0 x, (∀ lf, lf0 ≤ lf → latRound lf m jt f T M J = some x) ∧ (toM (T.length + x.2.1) x.1).det ≠ 0 := by
  obtain ⟨b, hb, hbd⟩ : ∃ b : Mat × ℕ, (if 0 < jt then (cldPolys m f T).map fun cld => buildLoop cld (cldN cld) jt J M else some (M, J)) = some b ∧ (toM (T.length + b.2) b.1).det ≠ 0 := by
    split
    · have : cldPolys m f T ≠ none := cldPolys_total hm hf fun t ht => ⟨hT t ht, hTm t ht, by
        obtain ⟨l1, l2, rfl⟩ := List.append_of_mem ht
        refine ⟨C F.leadingCoeff * ((l1.map toPoly).prod * (l2.map toPoly).prod), (Cong.of_eq ?_).trans hc⟩
        simp only [List.map_append, List.map_cons, List.prod_append, List.prod_cons]
        ring⟩
      obtain ⟨c, hc⟩ := Option.ne_none_iff_exists'.1 this
      rw [hc]
      refine ⟨_, rfl, ?_⟩
      rw [← cldPolys_length hc]
      exact det_build (by rw [cldPolys_length hc]; exact hd)
    · exact ⟨_, rfl, hd⟩
  obtain ⟨lf0, h0⟩ := lllReduce_total (by omega : 1 ≤ T.length + b.2) hbd (normBound T.length)
  obtain ⟨r, hr⟩ := Option.ne_none_iff_exists'.1 h0
  refine ⟨lf0, (r.1, b.2, r.2.2.map fun i => (List.range (T.length + b.2)).map (r.2.1 i)), fun lf hlf => ?_, det_lll (by omega) hbd hr⟩
  unfold latRound
  rw [hb, Option.bind_some]
  obtain ⟨d, rfl⟩ := Nat.exists_eq_add_of_le hlf
  rw [lllReduce_mono hr d]
  rfl

theorem det_initM (r : ℕ) : (toM r (initM r)).det ≠ 0 := det_of_lat (lat_init r)

theorem vhLoopL_total {sort : List (UPoly ℤ) → List (UPoly ℤ)} (hsort : ∀ l, (sort l).Perm l) {m : ℤ} (hm : 1 < m) {J0 Jmax : Nat} (hJ0 : 1 ≤ J0) (hJ : J0 ≤ Jmax) :
    ∀ (fuel jt : Nat) (f : UPoly ℤ) (T res : List (UPoly ℤ)) (M : Mat) (J : ℕ) (F : ℤ[X]) (Rs : List ℤ[X]), Is f F → F.IsPrimitive → IsCoprime F.leadingCoeff m →
    (∀ t ∈ T, Canon comp t) → (∀ t ∈ T, (toPoly t).Monic ∧ 0 < (toPoly t).natDegree) → List.Forall₂ Is res Rs → (∀ R ∈ Rs, R.IsPrimitive ∧ 0 < R.natDegree) →
    Cong m (C F.leadingCoeff * (T.map toPoly).prod) F → (toM (T.length + J) M).det ≠ 0 → jt ≤ Jmax → T.length * (Jmax + 3) + (Jmax + 1 - jt) < fuel →
    ∃ lf0 out, ∀ lf, lf0 ≤ lf → vhLoopL lf sort m J0 Jmax fuel jt f T res M J = some out := by
  intro fuel
  induction fuel with
  | zero => intro jt f T res M J F Rs _ _ _ _ _ _ _ _ _ _ h; omega
  | succ fuel ih =>
    intro jt f T res M J F Rs hf pF hcop hT hTm hres hRs hc hd hjt hfu
    have e : ∀ lf, vhLoopL lf sort m J0 Jmax (fuel + 1) jt f T res M J = if T.length > 1 then
      (latRound lf m jt f T M J).bind fun x =>
      (vhRound m T (candidates x.2.2 T.length) (f, [], res)).bind fun s =>
      if s.2.1 ≠ [] then vhLoopL lf sort m J0 Jmax fuel 0 s.1 (vhRemain T s.2.1) s.2.2 (initM (vhRemain T s.2.1).length) 0
      else
        let jt' := if jt = 0 then J0 else jt * 2
        if jt' > Jmax then (zassenhaus sort m f T).map fun z => res ++ z
        else vhLoopL lf sort m J0 Jmax fuel jt' f T res x.1 x.2.1
    else some (sort (if f ≠ [] ∧ deg f > 0 then res ++ [f] else res)) := fun lf => rfl
    simp only [e]
    by_cases hl : T.length > 1
    · simp only [if_pos hl]
      obtain ⟨l1, x, hx, hxd⟩ := latRound_total (jt := jt) hm hf (by omega) hT (fun t ht => (hTm t ht).1) hc hd
      obtain ⟨y, F', Rs', s1, s2, s3, s4, s5, _⟩ := vhRound_spec hm hT hTm (candidates x.2.2 T.length) (candidates_ok _ _) (f, [], res) F Rs ⟨hf, pF, hcop, by simp, by simp, by simp; omega, hres, hRs⟩
      by_cases hu : y.2.1 ≠ []
      · have hsub := vhRemain_sublist T y.2.1
        have hlen := vhRemain_length s2.nodup s2.lt
        have hup := List.length_pos_iff.2 hu
        have hmul : (vhRemain T y.2.1).length * (Jmax + 3) + (Jmax + 3) ≤ T.length * (Jmax + 3) := by
          rw [← hlen, add_mul]
          have : 1 * (Jmax + 3) ≤ y.2.1.length * (Jmax + 3) := Nat.mul_le_mul_right _ hup
          omega
        obtain ⟨l2, out, ho⟩ := ih 0 y.1 (vhRemain T y.2.1) y.2.2 (initM (vhRemain T y.2.1).length) 0 F' Rs' s2.isF s2.prim s2.cop (fun t ht => hT t (hsub.subset ht)) (fun t ht => hTm t (hsub.subset ht)) s2.isR
          s2.rs (s5 (by rw [vhRemain_nil]; exact hc)) (det_initM _) (by omega) (by omega)
        refine ⟨max l1 l2, out, fun lf hlf => ?_⟩
        rw [hx lf (by omega), Option.bind_some, s1, Option.bind_some, if_pos hu]
        exact ho lf (by omega)
      · have hjt' : jt < (if jt = 0 then J0 else jt * 2) := by split <;> omega
        obtain ⟨jt', hj⟩ : ∃ jt', jt' = if jt = 0 then J0 else jt * 2 := ⟨_, rfl⟩
        simp only [← hj]
        rw [← hj] at hjt'
        by_cases hx' : jt' > Jmax
        · obtain ⟨z, Zs, z1, _⟩ := zassenhaus_spec hsort hm hf pF hcop (forall2_toPoly hT) fun P hP => by
            obtain ⟨t, ht, rfl⟩ := List.mem_map.1 hP
            exact hTm t ht
          refine ⟨l1, res ++ z, fun lf hlf => ?_⟩
          rw [hx lf (by omega), Option.bind_some, s1, Option.bind_some, if_neg hu, if_pos hx', z1]
          rfl
        · obtain ⟨l2, out, ho⟩ := ih jt' f T res x.1 x.2.1 F Rs hf pF hcop hT hTm hres hRs hc hxd (by omega) (by omega)
          refine ⟨max l1 l2, out, fun lf hlf => ?_⟩
          rw [hx lf (by omega), Option.bind_some, s1, Option.bind_some, if_neg hu, if_neg hx']
          exact ho lf (by omega)
    · simp only [if_neg hl]
      exact ⟨0, _, fun _ _ => rfl⟩

/-- `__vanhoeij_recombine` returns -/
theorem vanHoeijL_total {sort : List (UPoly ℤ) → List (UPoly ℤ)} (hsort : ∀ l, (sort l).Perm l) {m : ℤ} (hm : 1 < m) {f : UPoly ℤ} {F : ℤ[X]} (hf : Is f F) (pF : F.IsPrimitive) (hd : 0 < F.natDegree)
    (hcop : IsCoprime F.leadingCoeff m) {T : List (UPoly ℤ)} {Ts : List ℤ[X]} (hT : List.Forall₂ Is T Ts) (hTm : ∀ A ∈ Ts, A.Monic ∧ 0 < A.natDegree) (hc : Cong m (C F.leadingCoeff * Ts.prod) F) :
    ∃ lf0 out, ∀ lf, lf0 ≤ lf → vanHoeijL lf sort m f T = some out := by
  obtain ⟨rfl, hTc⟩ := forall2_toPoly_of hT
  have hdd : deg f = F.natDegree := is_deg hf
  exact vhLoopL_total hsort hm (J0 := min (if 3 * T.length > deg f + 1 then 30 else 10) ((deg f + 1) / 2)) (Jmax := (deg f + 1) / 2)
    (by split <;> omega) (by omega) ((T.length + 1) * ((deg f + 1) / 2 + 3)) 0 f T [] _ 0 F [] hf pF hcop hTc (fun t ht => hTm _ (List.mem_map_of_mem ht)) .nil (by simp) hc (det_initM _) (by omega)
    (by rw [add_mul]; omega)

section
variable {p : Nat} [hp : Fact p.Prime]

theorem lllFactorizeL_total {ah : Nat} {sort : List (UPoly ℤ) → List (UPoly ℤ)} (hsort : ∀ l, (sort l).Perm l) {f : UPoly ℤ} {F : ℤ[X]} (hf : Is f F) (pF : F.IsPrimitive) (hd : 0 < F.natDegree)
    {fs : List (UPoly (ZMod p))} (S : SelOK p F fs) (hlen : 2 ≤ fs.length) : ∃ lf0, ∀ lf, lf0 ≤ lf → lllFactorizeL ah lf sort p f fs ≠ none := by
  have F0 : F ≠ 0 := pF.ne_zero
  have pp := hp.out.one_lt
  have pp' : (1 : ℤ) < p := by exact_mod_cast pp
  obtain ⟨a, b, B, s1, _⟩ := startPrecision_spec (ah := ah) pp hf F0
  have hfs : List.Forall₂ Is fs (fs.map toPoly) := by
    have hc := S.canon
    clear S hlen
    induction fs with
    | nil => exact .nil
    | cons g l ih => exact .cons (is_of_canon (hc g (by simp))) (ih fun g hg => hc g (by simp [hg]))
  have hmi : ∀ A ∈ fs.map toPoly, A.Monic ∧ Irreducible A := fun A hA => by
    obtain ⟨g, hg, rfl⟩ := List.mem_map.1 hA
    exact S.mi g hg
  have hcop := good_of_forall₂.coprime_of_nodup hmi S.nodup
  have vh : ∀ a, ∃ r m, henselLift p f fs a = some (r, m) ∧ ∃ lf0 out, ∀ lf, lf0 ≤ lf → vanHoeijL lf sort m f r = some out := fun a => by
    obtain ⟨r1, k1, T1, a1, a2, a3, _, a4, a5, _⟩ := henselLift_spec hf S.lc hfs (by simpa using hlen) (fun A hA => (hmi A hA).1) hcop S.prod a
    have good := good_of_forall₂ a4 a3 hmi S.nodup
    have hm1 : 1 < (p : ℤ) ^ 2 ^ k1 := one_lt_pow₀ pp' (by positivity)
    exact ⟨r1, _, a1, vanHoeijL_total hsort hm1 hf pF hd (coprime_pow_lc S.lc _) a2 (fun A hA => ⟨a3 A hA, good_pos good A hA⟩) a5⟩
  obtain ⟨r1, m1, h1, l1, o1, v1⟩ := vh a
  obtain ⟨r2, m2, h2, l2, o2, v2⟩ := vh 0
  refine ⟨max l1 l2, fun lf hlf => ?_⟩
  unfold lllFactorizeL
  rw [s1, Option.bind_some, h1, Option.bind_some, v1 lf (by omega), Option.bind_some]
  split
  · rw [h2, Option.bind_some, v2 lf (by omega)]; simp
  · simp

end

/-- `__factor_squarefree_primitive_ZZ` with the lattice returns once a prime was selected -/
theorem factorSqfPrimL_total {fuel : Nat} {ps : List ({p : Nat // p.Prime} × List Nat)} (hps : ∀ x ∈ ps, x.1.1 < W ∧ ∀ c ∈ x.2, c < x.1.1) {ah : Nat} {sort : List (UPoly ℤ) → List (UPoly ℤ)}
    (hsort : ∀ l, (sort l).Perm l) {f : UPoly ℤ} {F : ℤ[X]} (hf : Is f F) (pF : F.IsPrimitive) (hd : 2 ≤ F.natDegree) (lF : F.natDegree + 1 < W) (h : selectLoop fuel f ps 0 none ≠ none) :
    ∃ lf0, ∀ lf, lf0 ≤ lf → factorSqfPrimL fuel lf ps ah sort f ≠ none := by
  have hne : ¬ (f = [] ∨ deg f < 2) := by rw [is_nil_iff hf, is_deg hf]; simp only [pF.ne_zero, false_or]; omega
  obtain ⟨s, es⟩ := Option.ne_none_iff_exists'.1 h
  obtain ⟨S, _⟩ := selectLoop_spec hf lF (by omega) ps 0 none s hps (by simp) es
  have := s.prime
  by_cases hc : s.irreducible = true ∨ s.factors.length ≤ 1
  · refine ⟨0, fun lf _ => ?_⟩
    unfold factorSqfPrimL
    rw [if_neg hne, es, Option.bind_some, if_pos hc]
    simp
  · obtain ⟨lf0, h0⟩ := lllFactorizeL_total (ah := ah) hsort hf pF (by omega) S (by rw [not_or] at hc; omega)
    refine ⟨lf0, fun lf hlf => ?_⟩
    unfold factorSqfPrimL
    rw [if_neg hne, es, Option.bind_some, if_neg hc]
    exact h0 lf hlf

/-! ## the lattice never groups modular factors -/

theorem rowsSep_id (p : ℕ) (F : ℤ[X]) : RowsSep p F rowsId := by
  intro n jt f' T' rw' _ _ h c hc A _ i hi j hj hd
  unfold rowsId at h
  cases h
  rcases Nat.eq_zero_or_pos T'.length with h0 | h0
  · have := (candidates_ok _ _ c hc).2 i hi
    omega
  · rw [candidates_rowsId _ h0] at hc
    obtain ⟨k, _, rfl⟩ := List.mem_map.1 hc
    simp only [List.mem_singleton] at hi hj
    subst hi hj
    exact hd

/-- irreducibility of the factors, for degrees up to 7168 -/
theorem factorSqfPrimL_irr {fuel lf : Nat} {ps : List ({p : Nat // p.Prime} × List Nat)} (hps : ∀ x ∈ ps, x.1.1 < W ∧ ∀ c ∈ x.2, c < x.1.1) {ah : Nat} {sort : List (UPoly ℤ) → List (UPoly ℤ)}
    (hsort : ∀ l, (sort l).Perm l) {f : UPoly ℤ} {F : ℤ[X]} (hf : Is f F) (pF : F.IsPrimitive) (hd : 2 ≤ F.natDegree) (hD : F.natDegree ≤ 7168) {res : List (UPoly ℤ)}
    (h : factorSqfPrimL fuel lf ps ah sort f = some res) : ∃ Rs, List.Forall₂ Is res Rs ∧ Associated Rs.prod F ∧ (∀ R ∈ Rs, R.IsPrimitive ∧ 0 < R.natDegree) ∧ ∀ R ∈ Rs, Irreducible R := by
  have h1 := factorSqfPrimL_eq (by rw [is_deg hf]; exact hD) h
  obtain ⟨_, h2⟩ := factorSqfPrim_spec (fuel := fuel) (ah := ah) hps rowsId_ne rowsId_ne hsort hf pF hd (by have : W = 2 ^ 64 := rfl; omega)
  obtain ⟨Rs, a, b, c, d⟩ := h2 res h1
  exact ⟨Rs, a, b, c, d fun p _ => ⟨rowsSep_id p F, rowsSep_id p F⟩⟩

end Upoly
end CLPoly
