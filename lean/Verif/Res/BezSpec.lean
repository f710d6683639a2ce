import Verif.Res.Bez
import Verif.Res.Start

/-! # The determinant branch of the resultant -/

namespace CLPoly
namespace Res
open Mono MvPolynomial Mgcd

section theory
open Polynomial
variable {A : Type*} [CommRing A]

/-- the lowest `s` coefficients -/
noncomputable def low (P : Polynomial A) (s : ℕ) : Polynomial A := ∑ k ∈ Finset.range s, Polynomial.C (P.coeff k) * Polynomial.X ^ k
/-- the `i` coefficients from position `s` on -/
noncomputable def high (P : Polynomial A) (s i : ℕ) : Polynomial A := ∑ k ∈ Finset.range i, Polynomial.C (P.coeff (s + k)) * Polynomial.X ^ k

theorem low_high {P : Polynomial A} {s i : ℕ} (h : P.natDegree < s + i) : P = low P s + Polynomial.X ^ s * high P s i := by
  conv_lhs => rw [Polynomial.as_sum_range_C_mul_X_pow' P h, Finset.sum_range_add]
  unfold low high
  rw [Finset.mul_sum]
  congr 1
  refine Finset.sum_congr rfl fun k _ => ?_
  ring

theorem low_deg (P : Polynomial A) {s : ℕ} (hs : 1 ≤ s) : (low P s).natDegree < s := by
  refine lt_of_le_of_lt (Polynomial.natDegree_sum_le_of_forall_le (n := s - 1) _ _ fun k hk => (Polynomial.natDegree_C_mul_X_pow_le _ _).trans ?_) (by omega)
  have := Finset.mem_range.1 hk
  omega

theorem high_deg (P : Polynomial A) (s : ℕ) {i : ℕ} (hi : 1 ≤ i) : (high P s i).natDegree < i := by
  refine lt_of_le_of_lt (Polynomial.natDegree_sum_le_of_forall_le (n := i - 1) _ _ fun k hk => (Polynomial.natDegree_C_mul_X_pow_le _ _).trans ?_) (by omega)
  have := Finset.mem_range.1 hk
  omega

theorem high_coeff (P : Polynomial A) (s : ℕ) {i k : ℕ} (hk : k < i) : (high P s i).coeff k = P.coeff (s + k) := by
  unfold high
  rw [Polynomial.finset_sum_coeff, Finset.sum_eq_single k]
  · simp
  · intro j _ hj
    simp [Polynomial.coeff_X_pow, hj.symm]
  · intro h
    exact absurd (Finset.mem_range.2 hk) h

/-- row `i` of the matrix -/
noncomputable def cay (F G : Polynomial A) (n m i : ℕ) : Polynomial A :=
  Polynomial.X ^ (n - m) * low G (m + 1 - i) * high F (n + 1 - i) i - low F (n + 1 - i) * high G (m + 1 - i) i

theorem cay_eq {F G : Polynomial A} {n m i : ℕ} (hF : F.natDegree = n) (hG : G.natDegree = m) (hmn : m ≤ n) (hi : i ≤ m) :
    cay F G n m i = Polynomial.X ^ (n - m) * G * high F (n + 1 - i) i - F * high G (m + 1 - i) i := by
  have e1 := low_high (P := F) (s := n + 1 - i) (i := i) (by omega)
  have e2 := low_high (P := G) (s := m + 1 - i) (i := i) (by omega)
  unfold cay
  conv_rhs => rw [e2]
  conv_rhs => enter [2]; rw [e1]
  rw [show (Polynomial.X : Polynomial A) ^ (n + 1 - i) = Polynomial.X ^ (n - m) * Polynomial.X ^ (m + 1 - i) by rw [← pow_add]; congr 1; omega]
  rw [← e2]
  conv_rhs => enter [1, 1, 2]; rw [e2]
  ring

theorem cay_deg {F G : Polynomial A} {n m i : ℕ} (hmn : m ≤ n) (hi : 1 ≤ i) (him : i ≤ m) : (cay F G n m i).natDegree < n := by
  have h1 := low_deg G (s := m + 1 - i) (by omega)
  have h2 := high_deg F (n + 1 - i) hi
  have h3 := low_deg F (s := n + 1 - i) (by omega)
  have h4 := high_deg G (m + 1 - i) hi
  have h5 := Polynomial.natDegree_X_pow_le (R := A) (n - m)
  have h6 := Polynomial.natDegree_mul_le (p := Polynomial.X ^ (n - m)) (q := low G (m + 1 - i))
  have h7 := Polynomial.natDegree_mul_le (p := Polynomial.X ^ (n - m) * low G (m + 1 - i)) (q := high F (n + 1 - i) i)
  have h8 := Polynomial.natDegree_mul_le (p := low F (n + 1 - i)) (q := high G (m + 1 - i) i)
  refine lt_of_le_of_lt (Polynomial.natDegree_sub_le _ _) (max_lt ?_ ?_) <;> omega

theorem cay_resultant [IsDomain A] {F G : Polynomial A} {n m : ℕ} (hm : 1 ≤ m) (hmn : m ≤ n) (hF : F.natDegree = n) (hG : G.natDegree = m) :
    (Matrix.of fun i c : Fin n => (brow G (cay F G n m) n m 0 i).coeff (n - 1 - c)).det = Polynomial.resultant F G n m := by
  refine brow_resultant (f2 := fun i => high F (n + 1 - i) i) (f4 := fun i => high G (m + 1 - i) i) hm hmn hF hG (fun i _ hi => cay_eq hF hG hmn hi)
    (fun i h1 h2 => cay_deg hmn h1 h2) (fun i hi => high_deg _ _ hi) (fun i hi => high_deg _ _ hi) fun i h1 h2 => ?_
  rw [high_coeff _ _ (by omega), show m + 1 - i + (i - 1) = m by omega, ← hG]
  rfl

end theory

variable {R : Type*} [CommRing R] [IsDomain R] [DecidableEq R] {v : Var} {V : Finset Var}

omit [IsDomain R] in
theorem coeffUp_getD {p : PV Mono R} (hp : PolyOK (varUni v) (lexGt (varUni v)) p) (i : ℕ) :
    PolyOK (varUni v) (lexGt (varUni v)) ((coeffUp v p).getD i []) ∧ val ((coeffUp v p).getD i []) = (toU v (val p)).coeff i := by
  obtain ⟨c1, c2⟩ := coeffUp_spec v hp
  by_cases h : i ≤ (val p).degreeOf v
  · rw [c2 i h]
    exact ⟨hp.termsAt (lex_ord (varUni_ord v)) v i le_rfl, isCoeff_iff.1 (isCoeff_termsAt (varUni_ord v) hp.monos v i)⟩
  · rw [List.getD_eq_default _ _ (by omega)]
    exact ⟨.nil, by rw [val_nil, Polynomial.coeff_eq_zero_of_natDegree_lt (by rw [natDegree_toU]; omega)]⟩

omit [IsDomain R] [DecidableEq R] in
theorem changeUp_eq {m : Mono} (hm : Valid (varUni v) m) (h0 : E m.data v = 0) (d : ℕ) : changeUp v m d = changeVarDeg (varUni v) m v d := by
  have ht : TopM (varUni v) v m := fun x _ => by
    by_cases h : x.1 = v
    · exact .inl h
    · right; simp [varUni, h]
  have hu := upDeg_eq (varUni_ord v) hm ht
  rcases Nat.eq_zero_or_pos d with rfl | hd
  · exact changeUp_zero (varUni_ord v) hm ht
  · unfold changeUp changeVarDeg
    rw [if_neg (by omega), if_neg (by rw [hu, h0]; simp)]
    congr 1
    rcases hl : m.data with _ | ⟨x, l⟩
    · rw [changeData, if_pos (by omega)]
    · have hx : x.1 ≠ v := by
        intro e
        have h1 := E_mem (varUni_ord v) hm.sorted (x := x) (by rw [hl]; exact List.mem_cons_self)
        have h2 := hm.pos x (by rw [hl]; exact List.mem_cons_self)
        rw [e, h0] at h1
        omega
      rw [changeData, if_neg (Ne.symm hx), if_pos (by simp [varUni, hx]), if_pos (by omega)]

omit [IsDomain R] in
theorem shiftP_spec {p : PV Mono R} (hp : PolyOK (varUni v) (lexGt (varUni v)) p) (hv : v ∉ (val p).vars) (d : ℕ) :
    PolyOK (varUni v) (lexGt (varUni v)) (shiftP v p d) ∧ val (shiftP v p d) = val p * X v ^ d := by
  have M := lex_ord (varUni_ord v)
  have h0 : ∀ t ∈ p, E t.1.data v = 0 := by
    intro t ht
    have h1 := hp.exp_le M ht v
    have h2 : (val p).degreeOf v = 0 := degreeOf_zero_iff.2 hv
    have h3 := E_nonneg (hp.monos t ht).pos v
    omega
  have e : shiftP v p d = p.map fun t => (changeVarDeg (varUni v) t.1 v d, t.2) := List.map_congr_left fun t ht => by
    rw [changeUp_eq (hp.monos t ht) (h0 t ht)]
  rw [e]
  refine ⟨hp.changeTerms M v (by omega) h0, ?_⟩
  rw [val_changeTerms (varUni_ord v) hp.monos, val_keepTerms (p := p) (varUni_ord v) hp.monos v (m := 0) h0, pow_zero, mul_one]

omit [IsDomain R] in
theorem foldAdd_spec (g : ℕ → PV Mono R) (L : List ℕ) : ∀ f : PV Mono R, PolyOK (varUni v) (lexGt (varUni v)) f → (∀ r ∈ L, PolyOK (varUni v) (lexGt (varUni v)) (g r)) →
    PolyOK (varUni v) (lexGt (varUni v)) (L.foldl (fun f r => pvAdd (lexGt (varUni v)) f (g r)) f) ∧
      val (L.foldl (fun f r => pvAdd (lexGt (varUni v)) f (g r)) f) = val f + (L.map fun r => val (g r)).sum := by
  induction L with
  | nil => intro f hf _; exact ⟨hf, by simp⟩
  | cons r L ih =>
    intro f hf hg
    obtain ⟨h1, h2⟩ := ih (pvAdd (lexGt (varUni v)) f (g r)) (hf.add (lex_ord (varUni_ord v)) (hg r (by simp))) fun r hr => hg r (by simp [hr])
    refine ⟨h1, ?_⟩
    rw [List.foldl_cons, h2, val_pvAdd, List.map_cons, List.sum_cons, add_assoc]

omit [DecidableEq R] [IsDomain R] in
theorem sum_range' (f : ℕ → MvPolynomial Var R) (a k : ℕ) : ((List.range' a k).map f).sum = ∑ j ∈ Finset.range k, f (a + j) := by
  rw [List.range'_eq_map_range, List.map_map]
  rfl

omit [DecidableEq R] [IsDomain R] in
theorem toU_term (c : MvPolynomial Var R) (hc : v ∉ c.vars) (e : ℕ) : toU v (c * X v ^ e) = Polynomial.C c * Polynomial.X ^ e := by
  rw [map_mul, map_pow, toU_X, toU_free hc]

/-- degrees and variables of a polynomial assembled from coefficients -/
theorem asm_sz {a N : ℕ} {p : PV Mono R} (hp : Sz v V a p) {s e : ℕ → ℕ} {k : ℕ} {f : MvPolynomial Var R} (hvV : v ∈ V)
    (hf : f = ∑ j ∈ Finset.range k, (toU v (val p)).coeff (s j) * X v ^ e j) (hN : f.degreeOf v ≤ N) (ha : a ≤ N) : f.vars ⊆ V ∧ (∀ w, f.degreeOf w ≤ N) ∧ ∀ w, w ≠ v → f.degreeOf w ≤ a := by
  have key : ∀ w, w ≠ v → f.degreeOf w ≤ (val p).degreeOf w := by
    intro w hw
    rw [hf]
    refine (degreeOf_sum_le w _ _).trans (Finset.sup_le fun j _ => (degreeOf_mul_le w _ _).trans ?_)
    have h1 : ((toU v (val p)).coeff (s j)).degreeOf w ≤ (val p).degreeOf w := (toU_coeff v _ _).degreeOf_le
    have h2 := degreeOf_pow_le w (X v : MvPolynomial Var R) (e j)
    rw [degreeOf_X_of_ne hw, mul_zero] at h2
    omega
  refine ⟨?_, fun w => ?_, fun w hw => (key w hw).trans (hp.deg w)⟩
  · intro w hw
    by_cases e : w = v
    · rw [e]; exact hvV
    · refine hp.vars (by_contra fun h0 => ?_)
      have := key w e
      have h1 : (val p).degreeOf w = 0 := degreeOf_zero_iff.2 h0
      exact degreeOf_zero_iff.1 (by omega) hw
  · by_cases e : w = v
    · rw [e]; exact hN
    · exact ((key w e).trans (hp.deg w)).trans ha

theorem sumHigh_spec {a : ℕ} {p : PV Mono R} (hp : Sz v V a p) (hvV : v ∈ V) {n d i : ℕ} (hdn : d ≤ n) (hi : 1 ≤ i) (hid : i ≤ d) {N : ℕ} (hn : n ≤ N) (haN : a ≤ N) :
    Sz v V N (sumHigh v n d i (coeffUp v p)) ∧ (∀ w, w ≠ v → (val (sumHigh v n d i (coeffUp v p))).degreeOf w ≤ a) ∧
      toU v (val (sumHigh v n d i (coeffUp v p))) = Polynomial.X ^ (n - d) * low (toU v (val p)) (d + 1 - i) := by
  have hsh : ∀ r, PolyOK (varUni v) (lexGt (varUni v)) (shiftP v ((coeffUp v p).getD (d - r) []) (n - r)) ∧ val (shiftP v ((coeffUp v p).getD (d - r) []) (n - r)) = (toU v (val p)).coeff (d - r) * X v ^ (n - r) := by
    intro r
    obtain ⟨h1, h2⟩ := coeffUp_getD hp.ok (d - r)
    obtain ⟨h3, h4⟩ := shiftP_spec h1 (by rw [h2]; exact free_coeff v _ _) (n - r)
    exact ⟨h3, by rw [h4, h2]⟩
  obtain ⟨h1, h2⟩ := foldAdd_spec (fun r => shiftP v ((coeffUp v p).getD (d - r) []) (n - r)) (List.range' i (d + 1 - i)) [] .nil fun r _ => (hsh r).1
  have h3 : val (sumHigh v n d i (coeffUp v p)) = ∑ j ∈ Finset.range (d + 1 - i), (toU v (val p)).coeff (d - (i + j)) * X v ^ (n - (i + j)) := by
    refine h2.trans ?_
    rw [val_nil, zero_add, sum_range']
    exact Finset.sum_congr rfl fun j _ => (hsh _).2
  have h4 : toU v (val (sumHigh v n d i (coeffUp v p))) = Polynomial.X ^ (n - d) * low (toU v (val p)) (d + 1 - i) := by
    rw [h3, map_sum, low]
    conv_rhs => rw [← Finset.sum_range_reflect, Finset.mul_sum]
    refine Finset.sum_congr rfl fun j hj => ?_
    have := Finset.mem_range.1 hj
    rw [toU_term _ (free_coeff v _ _), show d + 1 - i - 1 - j = d - (i + j) by omega, show n - (i + j) = (n - d) + (d - (i + j)) by omega, pow_add]
    ring
  have h5 : (val (sumHigh v n d i (coeffUp v p))).degreeOf v ≤ N := by
    rw [← natDegree_toU, h4]
    have := Polynomial.natDegree_mul_le (p := Polynomial.X ^ (n - d)) (q := low (toU v (val p)) (d + 1 - i))
    have := Polynomial.natDegree_X_pow_le (R := MvPolynomial Var R) (n - d)
    have := low_deg (toU v (val p)) (s := d + 1 - i) (by omega)
    omega
  obtain ⟨k1, k2, k3⟩ := asm_sz hp hvV h3 h5 haN
  exact ⟨⟨h1, k1, k2⟩, k3, h4⟩

theorem sumLow_spec {a : ℕ} {p : PV Mono R} (hp : Sz v V a p) (hvV : v ∈ V) {d i : ℕ} (hi : 1 ≤ i) (hid : i ≤ d) (had : d ≤ a) :
    Sz v V a (sumLow v d i (coeffUp v p)) ∧ toU v (val (sumLow v d i (coeffUp v p))) = high (toU v (val p)) (d + 1 - i) i := by
  have hsh : ∀ r, PolyOK (varUni v) (lexGt (varUni v)) (shiftP v ((coeffUp v p).getD (d - r + 1) []) (i - r)) ∧ val (shiftP v ((coeffUp v p).getD (d - r + 1) []) (i - r)) = (toU v (val p)).coeff (d - r + 1) * X v ^ (i - r) := by
    intro r
    obtain ⟨h1, h2⟩ := coeffUp_getD hp.ok (d - r + 1)
    obtain ⟨h3, h4⟩ := shiftP_spec h1 (by rw [h2]; exact free_coeff v _ _) (i - r)
    exact ⟨h3, by rw [h4, h2]⟩
  obtain ⟨h1, h2⟩ := foldAdd_spec (fun r => shiftP v ((coeffUp v p).getD (d - r + 1) []) (i - r)) (List.range' 1 i) [] .nil fun r _ => (hsh r).1
  have h3 : val (sumLow v d i (coeffUp v p)) = ∑ j ∈ Finset.range i, (toU v (val p)).coeff (d - (1 + j) + 1) * X v ^ (i - (1 + j)) := by
    refine h2.trans ?_
    rw [val_nil, zero_add, sum_range']
    exact Finset.sum_congr rfl fun j _ => (hsh _).2
  have h4 : toU v (val (sumLow v d i (coeffUp v p))) = high (toU v (val p)) (d + 1 - i) i := by
    rw [h3, map_sum, high]
    conv_rhs => rw [← Finset.sum_range_reflect]
    refine Finset.sum_congr rfl fun j hj => ?_
    have := Finset.mem_range.1 hj
    rw [toU_term _ (free_coeff v _ _), show d - (1 + j) + 1 = d + 1 - i + (i - 1 - j) by omega, show i - (1 + j) = i - 1 - j by omega]
  have h5 : (val (sumLow v d i (coeffUp v p))).degreeOf v ≤ a := by
    rw [← natDegree_toU, h4]
    have := high_deg (toU v (val p)) (d + 1 - i) hi
    omega
  obtain ⟨k1, k2, k3⟩ := asm_sz hp hvV h3 h5 le_rfl
  exact ⟨⟨h1, k1, k2⟩, h4⟩

variable {K : ℕ} (hK : (K : ℤ) < capLex V.card)
include hK

/-- the rows of the first kind -/
theorem bezRow_spec {a b n m i : ℕ} {F G : PV Mono R} (hF : Sz v V a F) (hG : Sz v V b G) (hvV : v ∈ V) (hn : (toU v (val F)).natDegree = n) (hm : (toU v (val G)).natDegree = m)
    (hmn : m ≤ n) (hi : 1 ≤ i) (him : i ≤ m) (ha : a + a ≤ K) (hb : b + b ≤ K) :
    ∃ row, bezRow v n m (coeffUp v F) (coeffUp v G) i = some row ∧ ∀ c < n, Sz v V (a + b) (row.getD c []) ∧ val (row.getD c []) = (cay (toU v (val F)) (toU v (val G)) n m i).coeff (n - 1 - c) ∧ v ∉ (val (row.getD c [])).vars := by
  have hna : n ≤ a := by rw [← hn, natDegree_toU]; exact hF.deg v
  have hmb : m ≤ b := by rw [← hm, natDegree_toU]; exact hG.deg v
  obtain ⟨s1, s1', v1⟩ := sumHigh_spec hG hvV hmn hi him (N := max a b) (by omega) (by omega)
  obtain ⟨s2, v2⟩ := sumLow_spec hF hvV hi (him.trans hmn) hna
  obtain ⟨s3, -, v3⟩ := sumHigh_spec hF hvV (le_refl n) hi (him.trans hmn) (N := a) hna le_rfl
  obtain ⟨s4, v4⟩ := sumLow_spec hG hvV hi him hmb
  obtain ⟨P, p1, p2, p3⟩ := mulP_spec hK s1 s2 (by omega)
  obtain ⟨Q, q1, q2, q3⟩ := mulP_spec hK s3 s4 (by omega)
  have okd := p2.ok.sub (lex_ord (varUni_ord v)) q2.ok
  have hval : toU v (val (pvSub (lexGt (varUni v)) P Q)) = cay (toU v (val F)) (toU v (val G)) n m i := by
    rw [val_pvSub, p3, q3, map_sub, map_mul, map_mul, v1, v2, v3, v4, Nat.sub_self, pow_zero, one_mul]
    rfl
  refine ⟨_, by rw [bezRow, p1, Option.bind_some, q1]; rfl, fun c hc => ?_⟩
  obtain ⟨g1, g2⟩ := coeffUp_getD okd (n - (c + 1))
  have e : ((List.range n).map fun j => (coeffUp v (pvSub (lexGt (varUni v)) P Q)).getD (n - (j + 1)) []).getD c [] = (coeffUp v (pvSub (lexGt (varUni v)) P Q)).getD (n - (c + 1)) [] := by
    rw [List.getD_eq_getElem _ _ (by simpa using hc), List.getElem_map, List.getElem_range]
  dsimp only
  rw [e]
  have hco : IsCoeff v (n - (c + 1)) (val (pvSub (lexGt (varUni v)) P Q)) (val ((coeffUp v (pvSub (lexGt (varUni v)) P Q)).getD (n - (c + 1)) [])) := isCoeff_iff.2 g2
  refine ⟨⟨g1, ?_, fun w => ?_⟩, by rw [g2, hval, show n - (c + 1) = n - 1 - c by omega], hco.not_vars⟩
  · refine hco.vars_subset.trans ?_
    rw [val_pvSub]
    exact (vars_sub_subset _).trans (Finset.union_subset p2.vars q2.vars)
  · by_cases e : w = v
    · rw [e, hco.degreeOf]; omega
    · refine hco.degreeOf_le.trans ?_
      rw [val_pvSub, p3, q3]
      refine (degreeOf_sub_le w _ _).trans (max_le ?_ ?_)
      · refine (degreeOf_mul_le w _ _).trans ?_
        have := s1' w e
        have := s2.deg w
        omega
      · refine (degreeOf_mul_le w _ _).trans ?_
        have := s3.deg w
        have := s4.deg w
        omega

omit hK in
/-- the rows of the second kind -/
theorem bezRow2_spec {b n m k : ℕ} {G : PV Mono R} (hG : Sz v V b G) (hm : (toU v (val G)).natDegree = m) (hk : m + k < n) :
    ∀ c < n, Sz v V b ((bezRow2 n m (coeffUp v G) (m + 1 + k)).getD c []) ∧
      val ((bezRow2 n m (coeffUp v G) (m + 1 + k)).getD c []) = (Polynomial.X ^ (n - 1 - (m + k)) * toU v (val G)).coeff (n - 1 - c) ∧ v ∉ (val ((bezRow2 n m (coeffUp v G) (m + 1 + k)).getD c [])).vars := by
  intro c hc
  have e : (bezRow2 n m (coeffUp v G) (m + 1 + k)).getD c [] = if m + 1 + k - m - 1 ≤ c ∧ c ≤ m + 1 + k - 1 then (coeffUp v G).getD (m - (c - (m + 1 + k - m - 1))) [] else [] := by
    rw [bezRow2, List.getD_eq_getElem _ _ (by simpa using hc), List.getElem_map, List.getElem_range]
  rw [e, Polynomial.coeff_X_pow_mul']
  split
  · rename_i h
    obtain ⟨g1, g2⟩ := coeffUp_getD hG.ok (m - (c - (m + 1 + k - m - 1)))
    have hco := isCoeff_iff.2 g2
    refine ⟨⟨g1, hco.vars_subset.trans hG.vars, fun w => hco.degreeOf_le.trans (hG.deg w)⟩, ?_⟩
    refine ⟨?_, hco.not_vars⟩
    rw [g2, if_pos (by omega)]
    congr 1
    omega
  · rename_i h
    refine ⟨.nil, ?_, by simp [val_nil]⟩
    rw [val_nil]
    split
    · rw [Polynomial.coeff_eq_zero_of_natDegree_lt (by omega)]
    · rfl

omit [IsDomain R] hK in
theorem mapM_spec {α β : Type*} (f : α → Option β) (P : α → β → Prop) (L : List α) (h : ∀ x ∈ L, ∃ y, f x = some y ∧ P x y) :
    ∃ Y, L.mapM f = some Y ∧ List.Forall₂ P L Y := by
  induction L with
  | nil => exact ⟨[], rfl, .nil⟩
  | cons x L ih =>
    obtain ⟨y, h1, h2⟩ := h x (by simp)
    obtain ⟨Y, h3, h4⟩ := ih fun x hx => h x (by simp [hx])
    exact ⟨y :: Y, by simp [List.mapM_cons, h1, h3], .cons h2 h4⟩

theorem bezout_spec {a b n m : ℕ} {F G : PV Mono R} (hF : Sz v V a F) (hG : Sz v V b G) (hvV : v ∈ V) (hn : (toU v (val F)).natDegree = n) (hm : (toU v (val G)).natDegree = m)
    (hmn : m ≤ n) (ha : a + a ≤ K) (hb : b + b ≤ K) :
    ∃ B, bezout v F G = some B ∧ ∀ r < n, ∀ c < n, Sz v V (if r < m then a + b else b) ((B.getD r []).getD c []) ∧
      val ((B.getD r []).getD c []) = (brow (toU v (val G)) (cay (toU v (val F)) (toU v (val G)) n m) n m 0 r).coeff (n - 1 - c) ∧ v ∉ (val ((B.getD r []).getD c [])).vars := by
  obtain ⟨Y, y1, y2⟩ := mapM_spec (fun k => bezRow v n m (coeffUp v F) (coeffUp v G) (m - k))
    (fun k row => ∀ c < n, Sz v V (a + b) (row.getD c []) ∧ val (row.getD c []) = (cay (toU v (val F)) (toU v (val G)) n m (m - k)).coeff (n - 1 - c) ∧ v ∉ (val (row.getD c [])).vars) (List.range m)
    (fun k hk => bezRow_spec hK hF hG hvV hn hm hmn (by have := List.mem_range.1 hk; omega) (by omega) ha hb)
  have hl : Y.length = m := by rw [← y2.length_eq, List.length_range]
  refine ⟨Y ++ (List.range (n - m)).map fun k => bezRow2 n m (coeffUp v G) (m + 1 + k), ?_, ?_⟩
  · unfold bezout
    rw [udeg_eq hF, udeg_eq hG, hn, hm]
    simp only [y1, Option.map_some]
  · intro r hr c hc
    unfold brow
    by_cases h : r < m
    · rw [if_pos h, if_pos h, List.getD_append _ _ _ _ (by rw [hl]; exact h)]
      have := (List.forall₂_iff_get.1 y2).2 r (by simpa using h) (by rw [hl]; exact h) c hc
      rw [List.getD_eq_getElem Y _ (by rw [hl]; exact h)]
      simpa using this
    · rw [if_neg h, if_neg h, List.getD_append_right _ _ _ _ (by rw [hl]; omega), hl]
      have e : ((List.range (n - m)).map fun k => bezRow2 n m (coeffUp v G) (m + 1 + k)).getD (r - m) [] = bezRow2 n m (coeffUp v G) (m + 1 + (r - m)) := by
        rw [List.getD_eq_getElem _ _ (by simp; omega), List.getElem_map, List.getElem_range]
      rw [e]
      have := bezRow2_spec hG hm (k := r - m) (n := n) (by omega) c hc
      rw [show m + (r - m) = r by omega] at this
      exact this

omit [IsDomain R] hK in
theorem Sz.add {N : ℕ} {p q : PV Mono R} (hp : Sz v V N p) (hq : Sz v V N q) : Sz v V N (pvAdd (lexGt (varUni v)) p q) :=
  ⟨hp.ok.add (lex_ord (varUni_ord v)) hq.ok, by rw [val_pvAdd]; exact (vars_add_subset _ _).trans (Finset.union_subset hp.vars hq.vars),
    fun w => by rw [val_pvAdd]; exact (degreeOf_add_le w _ _).trans (max_le (hp.deg w) (hq.deg w))⟩

omit [IsDomain R] hK in
theorem Sz.sub {N : ℕ} {p q : PV Mono R} (hp : Sz v V N p) (hq : Sz v V N q) : Sz v V N (pvSub (lexGt (varUni v)) p q) :=
  ⟨hp.ok.sub (lex_ord (varUni_ord v)) hq.ok, by rw [val_pvSub]; exact (vars_sub_subset _).trans (Finset.union_subset hp.vars hq.vars),
    fun w => by rw [val_pvSub]; exact (degreeOf_sub_le w _ _).trans (max_le (hp.deg w) (hq.deg w))⟩

/-- the expansion along the first column is the determinant -/
theorem detP_spec : ∀ (n : ℕ) (A : List (List (PV Mono R))) (D : ℕ → ℕ) (M : ℕ → ℕ → MvPolynomial Var R),
    (∀ r ≤ n, ∀ c ≤ n, Sz v V (D r) ((A.getD r []).getD c []) ∧ val ((A.getD r []).getD c []) = M r c) → ∑ r : Fin (n + 1), D r ≤ K →
    ∃ out, detP v (n + 1) A = some out ∧ Sz v V (∑ r : Fin (n + 1), D r) out ∧ val out = (Matrix.of fun i j : Fin (n + 1) => M i j).det := by
  intro n
  induction n with
  | zero =>
    intro A D M h _
    obtain ⟨h1, h2⟩ := h 0 le_rfl 0 le_rfl
    exact ⟨_, rfl, by simpa using h1, by rw [h2]; simp⟩
  | succ n ih =>
    intro A D M h hD
    obtain ⟨T, hT⟩ : ∃ T, T = ∑ r : Fin (n + 2), D r := ⟨_, rfl⟩
    rw [← hT] at hD
    -- one step of the loop
    have step : ∀ r < n + 2, (A.getD r []).getD 0 [] ≠ [] → ∃ d t,
        detP v (n + 1) ((List.range (n + 1)).map fun brow => (A.getD (if r > brow then brow else brow + 1) []).tail) = some d ∧ mulP v ((A.getD r []).getD 0 []) d = some t ∧
        Sz v V T t ∧ val t = M r 0 * (Matrix.of fun i j : Fin (n + 1) => M (if r > i then i else i + 1) (j + 1)).det := by
      intro r hr _
      have hsum : D r + ∑ i : Fin (n + 1), D (if r > i then i else i + 1) = T := by
        rw [hT, Fin.sum_univ_succAbove _ ⟨r, hr⟩]
        congr 1
        refine Finset.sum_congr rfl fun i _ => ?_
        congr 1
        simp only [Fin.succAbove, Fin.lt_def, Fin.val_castSucc]
        split <;> simp
      obtain ⟨d, d1, d2, d3⟩ := ih ((List.range (n + 1)).map fun brow => (A.getD (if r > brow then brow else brow + 1) []).tail)
        (fun i => D (if r > i then i else i + 1)) (fun i j => M (if r > i then i else i + 1) (j + 1)) (by
          intro i hi j hj
          have e : (((List.range (n + 1)).map fun brow => (A.getD (if r > brow then brow else brow + 1) []).tail).getD i []).getD j [] = (A.getD (if r > i then i else i + 1) []).getD (j + 1) [] := by
            have e' : ((List.range (n + 1)).map fun brow => (A.getD (if r > brow then brow else brow + 1) []).tail).getD i [] = (A.getD (if r > i then i else i + 1) []).tail := by
              rw [List.getD_eq_getElem _ _ (by rw [List.length_map, List.length_range]; omega), List.getElem_map, List.getElem_range]
            rw [e']
            rcases A.getD (if r > i then i else i + 1) [] with _ | ⟨x, l⟩
            · simp
            · simp
          rw [e]
          exact h _ (by split <;> omega) _ (by omega)) (by omega)
      obtain ⟨h1, h2⟩ := h r (by omega) 0 (by omega)
      obtain ⟨t, t1, t2, t3⟩ := mulP_spec hK h1 d2 (by omega)
      refine ⟨d, t, d1, t1, ?_, by rw [t3, h2, d3]⟩
      rw [hsum] at t2
      exact t2
    have loop : ∀ k ≤ n + 2, ∃ s, (List.range k).foldl (fun s arow => s.bind fun sum =>
        let a := (A.getD arow []).getD 0 []
        if a = [] then some sum
        else (detP v (n + 1) ((List.range (n + 1)).map fun brow => (A.getD (if arow > brow then brow else brow + 1) []).tail)).bind fun d =>
          (mulP v a d).map fun t => if arow % 2 = 0 then pvAdd (lexGt (varUni v)) sum t else pvSub (lexGt (varUni v)) sum t) (some []) = some s ∧ Sz v V T s ∧
        val s = ∑ r ∈ Finset.range k, (-1) ^ r * M r 0 * (Matrix.of fun i j : Fin (n + 1) => M (if r > i then i else i + 1) (j + 1)).det := by
      intro k
      induction k with
      | zero => exact fun _ => ⟨[], rfl, .nil, by simp [val_nil]⟩
      | succ k ihk =>
        intro hk
        obtain ⟨s, s1, s2, s3⟩ := ihk (by omega)
        rw [show List.range (k + 1) = List.range k ++ [k] from List.range_succ, List.foldl_append, s1, List.foldl_cons, List.foldl_nil, Option.bind_some]
        dsimp only
        by_cases h0 : (A.getD k []).getD 0 [] = []
        · refine ⟨s, by rw [if_pos h0], s2, ?_⟩
          have := (h k (by omega) 0 (by omega)).2
          rw [h0, val_nil] at this
          rw [Finset.sum_range_succ, s3, ← this, mul_zero, zero_mul, add_zero]
        · obtain ⟨d, t, d1, t1, t2, t3⟩ := step k (by omega) h0
          rw [if_neg h0, d1, Option.bind_some, t1, Option.map_some]
          refine ⟨_, rfl, by split; exacts [s2.add t2, s2.sub t2], ?_⟩
          rw [Finset.sum_range_succ, ← s3]
          split
          · rename_i h2
            rw [val_pvAdd, t3, (Nat.even_iff.2 h2).neg_one_pow, one_mul]
          · rename_i h2
            rw [val_pvSub, t3, (Nat.odd_iff.2 (by omega)).neg_one_pow]
            ring
    obtain ⟨s, s1, s2, s3⟩ := loop (n + 2) le_rfl
    refine ⟨s, s1, hT ▸ s2, ?_⟩
    rw [s3, Matrix.det_succ_column_zero, Finset.sum_range]
    refine Finset.sum_congr rfl fun r _ => ?_
    congr 1
    congr 1
    refine Matrix.ext fun i j => ?_
    simp only [Matrix.of_apply, Matrix.submatrix_apply]
    congr 1
    simp only [Fin.succAbove, Fin.lt_def, Fin.val_castSucc]
    split <;> simp

/-- **the determinant branch** -/
theorem resBez_spec {m l d : ℕ} {F G : PV Mono R} (hF : PolyOK (varUni v) (lexGt (varUni v)) F) (hG : PolyOK (varUni v) (lexGt (varUni v)) G) (hFV : (val F).vars ⊆ V) (hGV : (val G).vars ⊆ V)
    (hm : (val F).degreeOf v = m) (hl : (val G).degreeOf v = l) (hl1 : 1 ≤ l) (hlm : l ≤ m)
    (hd : ∀ w, l * (val F).degreeOf w + m * (val G).degreeOf w ≤ d) (hcap : (m + 1) * d ≤ K) :
    ∃ out, ((bezout v F G).bind fun B => detP v (udeg v F) B) = some out ∧ PolyOK (varUni v) (lexGt (varUni v)) out ∧
      toU v (val out) = Polynomial.C (Polynomial.resultant (toU v (val F)) (toU v (val G)) m l) := by
  have sF : Sz v V (d / l) F := ⟨hF, hFV, fun w => by
    rw [Nat.le_div_iff_mul_le (by omega), mul_comm]
    have := hd w
    omega⟩
  have sG : Sz v V (d / m) G := ⟨hG, hGV, fun w => by
    rw [Nat.le_div_iff_mul_le (by omega), mul_comm]
    have := hd w
    omega⟩
  have hm' : (toU v (val F)).natDegree = m := by rw [natDegree_toU, hm]
  have hl' : (toU v (val G)).natDegree = l := by rw [natDegree_toU, hl]
  have h2d : 2 * d ≤ K := (Nat.mul_le_mul_right d (by omega : 2 ≤ m + 1)).trans hcap
  have ha : d / l ≤ d := Nat.div_le_self _ _
  have hb : d / m ≤ d := Nat.div_le_self _ _
  have hvV : v ∈ V := hGV (by_contra fun h => by have := degreeOf_zero_iff.2 h; omega)
  obtain ⟨B, b1, b2⟩ := bezout_spec hK sF sG hvV hm' hl' hlm (by omega) (by omega)
  obtain ⟨n, rfl⟩ : ∃ n, m = n + 1 := ⟨m - 1, by omega⟩
  have hsum : ∑ r : Fin (n + 1), (if (r : ℕ) < l then d / l + d / (n + 1) else d / (n + 1)) ≤ K := by
    have e : ∀ r : Fin (n + 1), (if (r : ℕ) < l then d / l + d / (n + 1) else d / (n + 1)) = (if (r : ℕ) < l then d / l else 0) + d / (n + 1) := by
      intro r; split <;> omega
    rw [Finset.sum_congr rfl fun r _ => e r, Finset.sum_add_distrib, Finset.sum_const, Finset.card_univ, Fintype.card_fin, ← Finset.sum_range (fun r => if r < l then d / l else 0),
      ← Finset.sum_filter, Finset.sum_const, smul_eq_mul, smul_eq_mul]
    have h1 : (Finset.filter (fun r => r < l) (Finset.range (n + 1))).card ≤ l := by
      refine (Finset.card_le_card (t := Finset.range l) fun x hx => ?_).trans (by simp)
      exact Finset.mem_range.2 (Finset.mem_filter.1 hx).2
    have h2 := Nat.mul_le_mul_right (d / l) h1
    have h3 := Nat.mul_div_le d l
    have h4 := Nat.mul_div_le d (n + 1)
    omega
  obtain ⟨out, o1, o2, o3⟩ := detP_spec hK n B (fun r => if r < l then d / l + d / (n + 1) else d / (n + 1))
    (fun r c => (brow (toU v (val G)) (cay (toU v (val F)) (toU v (val G)) (n + 1) l) (n + 1) l 0 r).coeff (n + 1 - 1 - c))
    (fun r hr c hc => ⟨(b2 r (by omega) c (by omega)).1, (b2 r (by omega) c (by omega)).2.1⟩) hsum
  refine ⟨out, by rw [b1, Option.bind_some, udeg_eq sF, hm', o1], o2.ok, ?_⟩
  have o4 := cay_resultant hl1 hlm hm' hl'
  rw [o3, ← o4, toU_free]
  rw [← degreeOf_zero_iff]
  refine Nat.le_zero.1 ((degreeOf_det_le _ v (fun _ => 0) fun r c => ?_).trans (by simp))
  obtain ⟨-, e1, e2⟩ := b2 r r.2 c c.2
  rw [Matrix.of_apply, ← e1, degreeOf_zero_iff.2 e2]

end Res
end CLPoly
