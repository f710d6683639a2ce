import Verif.Random.Comb
import Verif.Poly.ConvertSpec

open MvPolynomial

namespace CLPoly.Random
open CLPoly Mono

variable {R : Type*} [CommRing R] [DecidableEq R] {vc : Var → Var → Bool} {mc : Mono → Mono → Bool}

/-- the exponent vector that assigns `e` to the variables `v` -/
noncomputable def vec (v : List Var) (e : List ℕ) : Var →₀ ℕ := ((v.zip e).map fun x => Finsupp.single x.1 x.2).sum

theorem expo_makeMono (ho : VarOrd vc) (v : List Var) (e : List ℕ) : expo (makeMono vc v e) = vec v e := by
  unfold makeMono
  have : ∀ x ∈ v.zip (e.map Int.ofNat), 0 ≤ x.2 := fun x hx => by
    have := (List.of_mem_zip hx).2
    obtain ⟨k, _, hk⟩ := List.mem_map.1 this
    rw [← hk]; exact Int.natCast_nonneg _
  rw [expo_normalize (m := ⟨v.zip (e.map Int.ofNat), 0⟩) ho this]
  unfold expo vec
  rw [List.zip_map_right, List.map_map]
  rfl

theorem makeMono_pos (v : List Var) (e : List ℕ) (ho : VarOrd vc) : ∀ x ∈ (makeMono vc v e).data, 0 ≤ x.2 := fun x hx => by
  refine ((normalize_valid ho _ fun y hy => ?_).pos x hx).le
  have := (List.of_mem_zip hy).2
  obtain ⟨k, _, hk⟩ := List.mem_map.1 this
  rw [← hk]; exact Int.natCast_nonneg _

theorem vec_cons (a : Var) (v : List Var) (x : ℕ) (e : List ℕ) : vec (a :: v) (x :: e) = Finsupp.single a x + vec v e := rfl

theorem vec_not_mem {a : Var} : ∀ {v : List Var} {e : List ℕ}, a ∉ v → vec v e a = 0
  | [], _, _ => by simp [vec]
  | _ :: _, [], _ => by simp [vec]
  | b :: v, x :: e, h => by
    rw [List.mem_cons, not_or] at h
    rw [vec_cons, Finsupp.add_apply, Finsupp.single_apply, if_neg (Ne.symm h.1), vec_not_mem h.2]

theorem vec_inj : ∀ {v : List Var} {e e' : List ℕ}, v.Nodup → e.length = v.length → e'.length = v.length → vec v e = vec v e' → e = e'
  | [], e, e', _, h, h', _ => by rw [List.length_eq_zero_iff.1 h, List.length_eq_zero_iff.1 h']
  | a :: v, x :: e, x' :: e', hv, h, h', heq => by
    rw [List.nodup_cons] at hv
    rw [vec_cons, vec_cons] at heq
    have h1 := DFunLike.congr_fun heq a
    rw [Finsupp.add_apply, Finsupp.add_apply, Finsupp.single_eq_same, Finsupp.single_eq_same, vec_not_mem hv.1, vec_not_mem hv.1] at h1
    obtain rfl : x = x' := h1
    rw [vec_inj hv.2 (by simpa using h) (by simpa using h') (add_left_cancel heq)]

theorem vec_degree : ∀ {v : List Var} {e : List ℕ}, e.length = v.length → (vec v e).degree = e.sum
  | [], e, h => by rw [List.length_eq_zero_iff.1 h]; simp [vec]
  | a :: v, x :: e, h => by
    rw [vec_cons, map_add, vec_degree (by simpa using h), List.sum_cons, Finsupp.degree_single]

/-! ## sums of distinct terms -/

theorem coeff_list_notMem {l : PV Mono R} {s : Var →₀ ℕ} (h : ∀ t ∈ l, expo t.1 ≠ s) : coeff s (val l) = 0 := by
  induction l with
  | nil => simp [val]
  | cons t l ih =>
    have : val (t :: l) = monomial (expo t.1) t.2 + val l := by simp [val]
    rw [this, coeff_add, coeff_monomial, if_neg (h t (by simp)), ih fun u hu => h u (List.mem_cons_of_mem _ hu), add_zero]

theorem coeff_list_mem {l : PV Mono R} (hnd : (l.map fun t => expo t.1).Nodup) {t : Mono × R} (ht : t ∈ l) : coeff (expo t.1) (val l) = t.2 := by
  induction l with
  | nil => simp at ht
  | cons u l ih =>
    have hv : val (u :: l) = monomial (expo u.1) u.2 + val l := by simp [val]
    rw [List.map_cons, List.nodup_cons] at hnd
    rw [hv, coeff_add, coeff_monomial]
    rcases List.mem_cons.1 ht with rfl | ht
    · rw [if_pos rfl, coeff_list_notMem fun w hw he => hnd.1 (List.mem_map.2 ⟨w, hw, he⟩), add_zero]
    · rw [if_neg (fun he : expo u.1 = expo t.1 => hnd.1 (List.mem_map.2 ⟨t, ht, he.symm⟩)), ih hnd.2 ht, zero_add]

/-- normalising a vector of distinct monomials -/
theorem normalize_nodup (M : MonoOrd vc mc) {l : PV Mono R} (hpos : ∀ t ∈ l, ∀ x ∈ t.1.data, 0 ≤ x.2) (hnd : (l.map fun t => expo t.1).Nodup) :
    PolyOK vc mc (polyNormalize vc mc l) ∧ val (polyNormalize vc mc l) = val l := by
  obtain ⟨_, h2, _⟩ := polyNormalize_spec M hpos
  exact ⟨(polyNormalize_ok_iff M hpos (sortResult_merge M (firstNormalize_valid M.vo hpos))).2 fun t ht h0 => by rwa [coeff_list_mem hnd ht], h2⟩

theorem support_list {l : PV Mono R} (hnd : (l.map fun t => expo t.1).Nodup) (h0 : ∀ t ∈ l, t.2 ≠ 0) :
    (val l).support = (l.map fun t => expo t.1).toFinset := by
  ext s
  rw [mem_support_iff, List.mem_toFinset, List.mem_map]
  constructor
  · intro h
    by_contra hc
    exact h (coeff_list_notMem fun t ht he => hc ⟨t, ht, he⟩)
  · rintro ⟨t, ht, rfl⟩
    rw [coeff_list_mem hnd ht]
    exact h0 t ht

/-! ## random_polynomial -/

theorem nonzeroCoeff_spec {cs : List ℤ} {c : R} {cs' : List ℤ} (h : nonzeroCoeff R cs = some (c, cs')) :
    c ≠ 0 ∧ (∃ k ∈ cs, c = (k : R)) ∧ ∀ k ∈ cs', k ∈ cs := by
  induction cs with
  | nil => simp [nonzeroCoeff] at h
  | cons k cs ih =>
    rw [nonzeroCoeff] at h
    split at h
    · rename_i h0
      obtain ⟨rfl, rfl⟩ := Prod.mk.inj (Option.some.inj h)
      exact ⟨h0, ⟨k, by simp, rfl⟩, fun x hx => List.mem_cons_of_mem _ hx⟩
    · obtain ⟨h1, ⟨x, hx, h2⟩, h3⟩ := ih h
      exact ⟨h1, ⟨x, List.mem_cons_of_mem _ hx, h2⟩, fun x hx => List.mem_cons_of_mem _ (h3 x hx)⟩

/-- the loop ends as soon as the stream contains a value that is not zero in the coefficient ring -/
theorem nonzeroCoeff_returns {cs : List ℤ} (h : ∃ k ∈ cs, (k : R) ≠ 0) : (nonzeroCoeff R cs).isSome := by
  induction cs with
  | nil => simp at h
  | cons k cs ih =>
    rw [nonzeroCoeff]
    split
    · rfl
    · rename_i h0
      obtain ⟨x, hx, hx0⟩ := h
      rcases List.mem_cons.1 hx with rfl | hx
      · exact absurd hx0 h0
      · exact ih ⟨x, hx, hx0⟩

theorem attach_spec {v : List Var} : ∀ {es : List (List ℕ)} {cs : List ℤ} {r : PV Mono R} {cs' : List ℤ}, attach R vc v es cs = some (r, cs') →
    r.map Prod.fst = es.map (makeMono vc v) ∧ (∀ t ∈ r, t.2 ≠ 0 ∧ ∃ k ∈ cs, t.2 = (k : R)) ∧ ∀ k ∈ cs', k ∈ cs
  | [], cs, r, cs', h => by
    obtain ⟨rfl, rfl⟩ := Prod.mk.inj (Option.some.inj h)
    exact ⟨rfl, by simp, fun _ h => h⟩
  | e :: es, cs, r, cs', h => by
    rw [attach] at h
    split at h
    · simp at h
    rename_i c cs1 hc
    split at h
    · simp at h
    rename_i r1 cs2 hr
    obtain ⟨rfl, rfl⟩ := Prod.mk.inj (Option.some.inj h)
    obtain ⟨c0, ⟨k, hk, hck⟩, hc'⟩ := nonzeroCoeff_spec hc
    obtain ⟨h1, h2, h3⟩ := attach_spec hr
    refine ⟨by rw [List.map_cons, List.map_cons, h1], fun t ht => ?_, fun k hk => hc' k (h3 k hk)⟩
    rcases List.mem_cons.1 ht with rfl | ht
    · exact ⟨c0, k, hk, hck⟩
    · obtain ⟨h4, k, hk, h5⟩ := h2 t ht
      exact ⟨h4, k, hc' k hk, h5⟩

/-- one value that is not zero is consumed by each coefficient -/
theorem nonzeroCoeff_count {cs : List ℤ} (h : 0 < cs.countP fun k : ℤ => decide ((k : R) ≠ 0)) :
    ∃ c cs', nonzeroCoeff R cs = some (c, cs') ∧ cs'.countP (fun k : ℤ => decide ((k : R) ≠ 0)) + 1 = cs.countP fun k : ℤ => decide ((k : R) ≠ 0) := by
  induction cs with
  | nil => simp at h
  | cons k cs ih =>
    rw [nonzeroCoeff]
    by_cases h0 : (k : R) ≠ 0
    · rw [if_pos h0, List.countP_cons_of_pos (by simpa using h0)]
      exact ⟨_, _, rfl, rfl⟩
    · rw [List.countP_cons_of_neg (by simpa using h0)] at h ⊢
      rw [if_neg h0]
      exact ih h

theorem attach_returns {v : List Var} : ∀ {es : List (List ℕ)} {cs : List ℤ}, es.length ≤ cs.countP (fun k : ℤ => decide ((k : R) ≠ 0)) →
    ∃ r cs', attach R vc v es cs = some (r, cs') ∧ cs'.countP (fun k : ℤ => decide ((k : R) ≠ 0)) + es.length = cs.countP fun k : ℤ => decide ((k : R) ≠ 0)
  | [], cs, _ => ⟨[], cs, rfl, by simp⟩
  | e :: es, cs, h => by
    rw [List.length_cons] at h ⊢
    obtain ⟨c, cs1, h1, h2⟩ := nonzeroCoeff_count (R := R) (cs := cs) (by omega)
    obtain ⟨r, cs2, h3, h4⟩ := attach_returns (v := v) (es := es) (cs := cs1) (by omega)
    refine ⟨(makeMono vc v e, c) :: r, cs2, ?_, by omega⟩
    rw [attach, h1]
    simp only [h3]

/-- the exponent vectors chosen -/
theorem chosen_spec {n deg len first : ℕ} {draws : List ℕ} (hf : Fits (n + 1) deg) (hlen : 0 < len) (hlt : len ≤ (deg + (n + 1)).choose (n + 1))
    (hfirst : first < (deg + n).choose n) (hdl : len < (deg + (n + 1)).choose (n + 1) → draws.length = len - 1)
    (hd : ∀ d ∈ draws, d ≤ (deg + (n + 1)).choose (n + 1) - len) :
    ∃ es, chosen (n + 1) deg ((deg + (n + 1)).choose (n + 1) - (deg + n).choose n) ((deg + (n + 1)).choose (n + 1)) len first draws = es ∧
      es.Nodup ∧ es.length = len ∧ (∀ e ∈ es, e.length = n + 1 ∧ e.sum ≤ deg) ∧ ∃ e ∈ es, e.sum = deg := by
  obtain ⟨T, hT⟩ : ∃ T, T = (deg + (n + 1)).choose (n + 1) := ⟨_, rfl⟩
  obtain ⟨H, hH⟩ : ∃ H, H = (deg + n).choose n := ⟨_, rfl⟩
  have hlo : 0 < deg → T - H = (deg - 1 + (n + 1)).choose (n + 1) := fun h0 => by
    rw [hT, hH, show deg + (n + 1) = (deg + n) + 1 by omega, Nat.choose_succ_succ, show deg - 1 + (n + 1) = deg + n by omega, Nat.succ_eq_add_one, Nat.add_sub_cancel_left]
  have hlo0 : deg = 0 → T - H = 0 := fun h0 => by rw [hT, hH, h0]; simp
  have hHT : H ≤ T := by rw [hT, hH, show deg + (n + 1) = (deg + n) + 1 by omega, Nat.choose_succ_succ]; omega
  rw [← hT] at hlt hdl hd ⊢
  rw [← hH] at hfirst ⊢
  refine ⟨_, rfl, ?_⟩
  obtain ⟨hf1, hf2⟩ := unrankExact_spec n deg first hf (by rw [← hH]; exact hfirst)
  unfold chosen
  by_cases h1 : 1 < len
  swap
  · rw [if_neg h1]
    exact ⟨by simp, by simp; omega, fun e he => by rw [List.mem_singleton.1 he]; exact ⟨hf1, hf2.le⟩, _, List.mem_singleton.2 rfl, hf2⟩
  rw [if_pos h1]
  obtain ⟨s1, s2, s3⟩ := randomSelect_noRepeat (m := T - 1) (n := len - 1) (draws := draws) (fun h => hdl (by omega)) (fun d h => by have := hd d h; omega)
  obtain ⟨sel, hsel⟩ : ∃ sel, sel = randomSelect (T - 1) (len - 1) true draws := ⟨_, rfl⟩
  rw [← hsel] at s1 s2 s3 ⊢
  -- the two branches
  obtain ⟨g, hg⟩ : ∃ g : ℕ → List ℕ, g = fun idx => if idx < T - H then unrankUpto (n + 1) (deg - 1) idx
        else unrankExact (n + 1) deg (if first ≤ idx - (T - H) then idx - (T - H) + 1 else idx - (T - H)) := ⟨_, rfl⟩
  have hglo : ∀ i, i < T - H → g i = unrankUpto (n + 1) (deg - 1) i := fun i hi => by rw [hg]; exact if_pos hi
  have hghi : ∀ i, ¬ i < T - H → g i = unrankExact (n + 1) deg (if first ≤ i - (T - H) then i - (T - H) + 1 else i - (T - H)) := fun i hi => by rw [hg]; exact if_neg hi
  show (unrankExact (n + 1) deg first :: sel.map (fun idx => if idx < T - H then unrankUpto (n + 1) (deg - 1) idx
        else unrankExact (n + 1) deg (if first ≤ idx - (T - H) then idx - (T - H) + 1 else idx - (T - H)))).Nodup ∧ _
  rw [← hg]
  have slo : ∀ i, i < T - H → (g i).length = n + 1 ∧ (g i).sum < deg := fun i hi => by
    have h0 : 0 < deg := by
      by_contra hc
      have := hlo0 (by omega)
      omega
    rw [hlo h0] at hi
    rw [hglo i (by rw [hlo h0]; exact hi)]
    have := unrankUpto_spec (n + 1) (deg - 1) i (hf.mono le_rfl (by omega)) hi
    exact ⟨this.1, by omega⟩
  have hx : ∀ i, i < T - 1 → ¬ i < T - H → (if first ≤ i - (T - H) then i - (T - H) + 1 else i - (T - H)) < H := fun i h1 h2 => by
    split <;> omega
  have shi : ∀ i, i < T - 1 → ¬ i < T - H → (g i).length = n + 1 ∧ (g i).sum = deg := fun i h1 h2 => by
    rw [hghi i h2]
    exact unrankExact_spec n deg _ hf (by rw [← hH]; exact hx i h1 h2)
  have hinj : ∀ i, i < T - 1 → ∀ j, j < T - 1 → g i = g j → i = j := fun i hi j hj he => by
    by_cases h1 : i < T - H <;> by_cases h2 : j < T - H
    · have h0 : 0 < deg := by
        by_contra hc
        have := hlo0 (by omega)
        omega
      rw [hglo i h1, hglo j h2] at he
      rw [hlo h0] at h1 h2
      exact unrankUpto_inj (n + 1) (deg - 1) i j (hf.mono le_rfl (by omega)) h1 h2 he
    · have a := (slo i h1).2
      have b := (shi j hj h2).2
      rw [he] at a; omega
    · have a := (slo j h2).2
      have b := (shi i hi h1).2
      rw [he] at b; omega
    · rw [hghi i h1, hghi j h2] at he
      have := unrankExact_inj n deg _ _ hf (by rw [← hH]; exact hx i hi h1) (by rw [← hH]; exact hx j hj h2) he
      split at this <;> split at this <;> omega
  have hnew : ∀ i, i < T - 1 → g i ≠ unrankExact (n + 1) deg first := fun i hi he => by
    by_cases h1 : i < T - H
    · have a := (slo i h1).2
      rw [he, hf2] at a; omega
    · rw [hghi i h1] at he
      have := unrankExact_inj n deg _ _ hf (by rw [← hH]; exact hx i hi h1) (by rw [← hH]; exact hfirst) he
      split at this <;> omega
  refine ⟨?_, ?_, ?_, _, List.mem_cons_self, hf2⟩
  · rw [List.nodup_cons]
    refine ⟨fun hm => ?_, ?_⟩
    · obtain ⟨i, hi, he⟩ := List.mem_map.1 hm
      exact hnew i (s2 i hi) he
    · refine List.Nodup.map_on (fun i hi j hj he => hinj i (s2 i hi) j (s2 j hj) he) ?_
      exact s1.imp fun h => Nat.ne_of_lt h
  · rw [List.length_cons, List.length_map, s3]; omega
  · intro e he
    rcases List.mem_cons.1 he with rfl | he
    · exact ⟨hf1, hf2.le⟩
    · obtain ⟨i, hi, rfl⟩ := List.mem_map.1 he
      by_cases h1 : i < T - H
      · exact ⟨(slo i h1).1, (slo i h1).2.le⟩
      · exact ⟨(shi i (s2 i hi) h1).1, (shi i (s2 i hi) h1).2.le⟩

/-- the constant term is recognised by an empty monomial -/
theorem makeMono_empty_iff (ho : VarOrd vc) {v : List Var} {e : List ℕ} : (makeMono vc v e).data = [] ↔ vec v e = 0 := by
  have hv : Valid vc (makeMono vc v e) := normalize_valid ho _ fun y hy => by
    obtain ⟨k, _, hk⟩ := List.mem_map.1 (List.of_mem_zip hy).2
    rw [← hk]; exact Int.natCast_nonneg _
  rw [← expo_makeMono ho]
  constructor
  · intro h
    unfold expo
    rw [h]; rfl
  · intro h
    have := expo_inj ho hv one_valid (h.trans expo_one.symm)
    rw [this]; rfl

/-- what a list of terms with the chosen monomials says about its value -/
theorem val_chosen {v : List Var} {deg : ℕ} {es : List (List ℕ)} {l : PV Mono R} (ho : VarOrd vc) (hv : v.Nodup) (hes : es.Nodup) (hlen : ∀ e ∈ es, e.length = v.length ∧ e.sum ≤ deg)
    (hl : l.map Prod.fst = es.map (makeMono vc v)) :
    (l.map fun t => expo t.1).Nodup ∧ (∀ t ∈ l, ∀ x ∈ t.1.data, 0 ≤ x.2) ∧ (∀ t ∈ l, (expo t.1).degree ≤ deg ∧ ∀ a, a ∉ v → expo t.1 a = 0) := by
  have h1 : (l.map fun t => expo t.1) = es.map (vec v) := by
    have := congrArg (List.map expo) hl
    rw [List.map_map, List.map_map] at this
    rw [show (l.map fun t => expo t.1) = l.map (expo ∘ Prod.fst) from rfl, this]
    exact List.map_congr_left fun e _ => expo_makeMono ho v e
  have h2 : ∀ t ∈ l, ∃ e ∈ es, makeMono vc v e = t.1 := fun t ht => by
    have : t.1 ∈ l.map Prod.fst := List.mem_map_of_mem ht
    rw [hl] at this
    exact List.mem_map.1 this
  refine ⟨?_, fun t ht => ?_, fun t ht => ?_⟩
  · rw [h1]
    exact List.Nodup.map_on (fun e he e' he' h => vec_inj hv (hlen e he).1 (hlen e' he').1 h) hes
  · obtain ⟨e, _, h⟩ := h2 t ht
    rw [← h]; exact makeMono_pos v e ho
  · obtain ⟨e, he, h⟩ := h2 t ht
    rw [← h, expo_makeMono ho, vec_degree (hlen e he).1]
    exact ⟨(hlen e he).2, fun a ha => vec_not_mem ha⟩

theorem totalDegree_le_of {f : MvPolynomial Var R} {d : ℕ} (h : ∀ s ∈ f.support, s.degree ≤ d) : f.totalDegree ≤ d := by
  rw [totalDegree]
  exact Finset.sup_le fun s hs => h s hs

theorem le_totalDegree_of {f : MvPolynomial Var R} {s : Var →₀ ℕ} (h : s ∈ f.support) : s.degree ≤ f.totalDegree :=
  le_totalDegree h

theorem vars_sub_of {f : MvPolynomial Var R} {v : List Var} (h : ∀ s ∈ f.support, ∀ a, a ∉ v → s a = 0) : ∀ a ∈ f.vars, a ∈ v := fun a ha => by
  rw [mem_vars] at ha
  obtain ⟨s, hs, has⟩ := ha
  by_contra hc
  exact (Finsupp.mem_support_iff.1 has) (h s hs a hc)

theorem randomPoly_spec (M : MonoOrd vc mc) {v : List Var} (hv : v.Nodup) (hne : v ≠ []) {deg len : ℕ} {addNum : Bool} {first : ℕ} {draws : List ℕ} {cs : List ℤ} {lo hi : ℤ}
    (hf : Fits v.length deg) (hfirst : first < (deg + v.length - 1).choose (v.length - 1))
    (hdl : len < (deg + v.length).choose v.length → draws.length = len - 1) (hd : ∀ d ∈ draws, d ≤ (deg + v.length).choose v.length - len)
    (hcs : ∀ c ∈ cs, lo ≤ c ∧ c ≤ hi) {p : PV Mono R} (h : randomPoly R vc mc v deg len addNum first draws cs = some p) :
    PolyOK vc mc p ∧ (∀ a ∈ (val p).vars, a ∈ v) ∧ (∀ s ∈ (val p).support, ∃ c : ℤ, lo ≤ c ∧ c ≤ hi ∧ (val p).coeff s = (c : R)) ∧
      (0 < len → (val p).totalDegree = deg) ∧
      ((val p).support.card = min len ((deg + v.length).choose v.length) ∨
        addNum = true ∧ (val p).support.card = min len ((deg + v.length).choose v.length) + 1) ∧
      (addNum = true → 0 < len → (val p).coeff 0 ≠ 0) ∧ (len = 0 → p = []) := by
  obtain ⟨n, hn⟩ : ∃ n, v.length = n + 1 := ⟨v.length - 1, by have := List.length_pos_of_ne_nil hne; omega⟩
  rw [hn] at hf hfirst hdl hd ⊢
  rw [show deg + (n + 1) - 1 = deg + n by omega, Nat.add_sub_cancel] at hfirst
  unfold randomPoly at h
  simp only [hn] at h
  rw [countUpto_eq hf, countExact_eq hf] at h
  have hT : 0 < (deg + (n + 1)).choose (n + 1) := Nat.choose_pos (by omega)
  obtain ⟨L, hL⟩ : ∃ L, L = if (deg + (n + 1)).choose (n + 1) < len then (deg + (n + 1)).choose (n + 1) else len := ⟨_, rfl⟩
  have hLmin : L = min len ((deg + (n + 1)).choose (n + 1)) := by
    rw [hL]; split <;> omega
  rw [← hL] at h
  rw [← hLmin]
  split at h
  · rename_i h0
    obtain rfl := Option.some.inj h
    refine ⟨⟨by simp, ⟨List.Pairwise.nil, by simp⟩⟩, by simp [val], by simp [val], fun h => by omega, Or.inl (by simp [val, h0]), fun _ h => by omega, fun _ => rfl⟩
  rename_i hL0
  obtain ⟨es, hes, c1, c2, c3, emax, c4, c5⟩ := chosen_spec (draws := draws) hf (len := L) (by omega) (by omega) hfirst (fun h => by have := hdl (by omega); omega)
    (fun d h => by have := hd d h; omega)
  rw [hes] at h
  split at h
  · simp at h
  rename_i p1 cs1 hp1
  obtain ⟨a1, a2, a3⟩ := attach_spec hp1
  rw [← hn] at c3
  obtain ⟨b1, b2, b3⟩ := val_chosen M.vo hv c1 c3 a1
  have hlen1 : p1.length = L := by rw [← c2, ← List.length_map (f := makeMono vc v), ← a1, List.length_map]
  have hmaxmem : ∃ t ∈ p1, (expo t.1).degree = deg := by
    have : makeMono vc v emax ∈ p1.map Prod.fst := by rw [a1]; exact List.mem_map_of_mem c4
    obtain ⟨t, ht, he⟩ := List.mem_map.1 this
    exact ⟨t, ht, by rw [he, expo_makeMono M.vo, vec_degree (c3 _ c4).1, c5]⟩
  have hconst : (p1.any fun t => t.1.data.isEmpty) = true ↔ ∃ t ∈ p1, expo t.1 = 0 := by
    rw [List.any_eq_true]
    refine exists_congr fun t => and_congr_right fun ht => ?_
    have : t.1 ∈ p1.map Prod.fst := List.mem_map_of_mem ht
    rw [a1] at this
    obtain ⟨e, _, he⟩ := List.mem_map.1 this
    rw [← he, List.isEmpty_iff, makeMono_empty_iff M.vo, expo_makeMono M.vo]
  -- a general conclusion for the final list
  have main : ∀ q : PV Mono R, (q.map fun t => expo t.1).Nodup → (∀ t ∈ q, ∀ x ∈ t.1.data, 0 ≤ x.2) → (∀ t ∈ q, t.2 ≠ 0 ∧ ∃ k ∈ cs, t.2 = (k : R)) →
      (∀ t ∈ q, (expo t.1).degree ≤ deg ∧ ∀ a, a ∉ v → expo t.1 a = 0) → (∃ t ∈ q, (expo t.1).degree = deg) →
      PolyOK vc mc (polyNormalize vc mc q) ∧ (∀ a ∈ (val (polyNormalize vc mc q)).vars, a ∈ v) ∧
      (∀ s ∈ (val (polyNormalize vc mc q)).support, ∃ c : ℤ, lo ≤ c ∧ c ≤ hi ∧ (val (polyNormalize vc mc q)).coeff s = (c : R)) ∧
      (val (polyNormalize vc mc q)).totalDegree = deg ∧ (val (polyNormalize vc mc q)).support.card = q.length ∧
      ((∃ t ∈ q, expo t.1 = 0) → (val (polyNormalize vc mc q)).coeff 0 ≠ 0) := by
    intro q q1 q2 q3 q4 q5
    obtain ⟨r1, r2⟩ := normalize_nodup M q2 q1
    have hs := support_list q1 fun t ht => (q3 t ht).1
    rw [r2]
    have hs' : ∀ s ∈ (val q).support, ∃ t ∈ q, expo t.1 = s := fun s h => by
      rw [hs, List.mem_toFinset] at h
      exact List.mem_map.1 h
    refine ⟨r1, vars_sub_of fun s h => ?_, fun s h => ?_, le_antisymm (totalDegree_le_of fun s h => ?_) ?_, ?_, fun ⟨t, ht, h0⟩ => ?_⟩
    · obtain ⟨t, ht, rfl⟩ := hs' s h
      exact (q4 t ht).2
    · obtain ⟨t, ht, rfl⟩ := hs' s h
      obtain ⟨_, k, hk, h2⟩ := q3 t ht
      exact ⟨k, (hcs k hk).1, (hcs k hk).2, by rw [coeff_list_mem q1 ht, h2]⟩
    · obtain ⟨t, ht, rfl⟩ := hs' s h
      exact (q4 t ht).1
    · obtain ⟨t, ht, hd⟩ := q5
      rw [← hd]
      refine le_totalDegree_of ?_
      rw [hs, List.mem_toFinset]
      exact List.mem_map.2 ⟨t, ht, rfl⟩
    · rw [hs, List.toFinset_card_of_nodup q1, List.length_map]
    · have := coeff_list_mem q1 ht
      rw [h0] at this
      rw [this]; exact (q3 t ht).1
  split at h
  · rename_i hadd
    rw [Bool.and_eq_true, Bool.not_eq_true', ← Bool.not_eq_true, hconst] at hadd
    split at h
    · simp at h
    rename_i c cs2 hc
    obtain rfl := Option.some.inj h
    obtain ⟨d1, ⟨k, hk, d2⟩, _⟩ := nonzeroCoeff_spec hc
    have e0 : expo Mono.one = 0 := expo_one
    obtain ⟨m1, m2, m3, m4, m5, m6⟩ := main (p1 ++ [(Mono.one, c)])
      (by
        rw [List.map_append, List.map_singleton, e0]
        refine List.nodup_append.2 ⟨b1, by simp, ?_⟩
        rintro a ha b hb rfl
        rw [List.mem_singleton.1 hb] at ha
        exact hadd.2 (List.mem_map.1 ha))
      (by
        intro t ht
        rcases List.mem_append.1 ht with ht | ht
        · exact b2 t ht
        · rw [List.mem_singleton.1 ht]; simp [Mono.one])
      (by
        intro t ht
        rcases List.mem_append.1 ht with ht | ht
        · exact a2 t ht
        · rw [List.mem_singleton.1 ht]; exact ⟨d1, k, a3 k hk, d2⟩)
      (by
        intro t ht
        rcases List.mem_append.1 ht with ht | ht
        · exact b3 t ht
        · rw [List.mem_singleton.1 ht]
          show (expo Mono.one).degree ≤ deg ∧ ∀ a, a ∉ v → expo Mono.one a = 0
          rw [e0]; simp)
      (by
        obtain ⟨t, ht, h⟩ := hmaxmem
        exact ⟨t, List.mem_append_left _ ht, h⟩)
    refine ⟨m1, m2, m3, fun _ => m4, Or.inr ⟨hadd.1, ?_⟩, fun _ _ => m6 ⟨(Mono.one, c), by simp, e0⟩, fun h => by omega⟩
    rw [m5, List.length_append, hlen1]; rfl
  · rename_i hadd
    obtain rfl := Option.some.inj h
    obtain ⟨m1, m2, m3, m4, m5, m6⟩ := main p1 b1 b2 a2 b3 hmaxmem
    refine ⟨m1, m2, m3, fun _ => m4, Or.inl (by rw [m5, hlen1]), fun ha _ => ?_, fun h => by omega⟩
    refine m6 (hconst.1 ?_)
    simpa [ha] using hadd

/-- the call returns as soon as the coefficient stream contains enough values that are not zero in the coefficient ring -/
theorem randomPoly_returns {v : List Var} {deg len : ℕ} {addNum : Bool} {first : ℕ} {draws : List ℕ} {cs : List ℤ}
    (hcs : draws.length + len + 2 + countUpto v.length deg ≤ cs.countP fun k : ℤ => decide ((k : R) ≠ 0)) :
    ∃ p, randomPoly R vc mc v deg len addNum first draws cs = some p := by
  unfold randomPoly
  simp only
  obtain ⟨L, hL⟩ : ∃ L, L = if countUpto v.length deg < len then countUpto v.length deg else len := ⟨_, rfl⟩
  rw [← hL]
  by_cases hL0 : L = 0
  · exact ⟨[], if_pos hL0⟩
  rw [if_neg hL0]
  obtain ⟨es, hes⟩ : ∃ es, es = chosen v.length deg (countUpto v.length deg - countExact v.length deg) (countUpto v.length deg) L first draws := ⟨_, rfl⟩
  have hlen : es.length ≤ draws.length + 1 + countUpto v.length deg := by
    rw [hes, chosen, List.length_cons]
    split
    · rw [List.length_map]
      unfold randomSelect
      split
      · rw [List.length_range]; omega
      · simp only [if_true, List.length_mapIdx]
        rw [(vecSort_perm (le := fun a b : ℕ => decide (a ≤ b)) _).length_eq, List.length_take]
        omega
    · simp only [List.length_nil]; omega
  obtain ⟨r, cs', h1, h2⟩ := attach_returns (R := R) (vc := vc) (v := v) (es := es) (cs := cs) (by omega)
  rw [← hes, h1]
  simp only
  split
  · obtain ⟨c, cs2, h3, _⟩ := nonzeroCoeff_count (R := R) (cs := cs') (by omega)
    rw [h3]
    exact ⟨_, rfl⟩
  · exact ⟨_, rfl⟩

/-- a coefficient range that contains only zero: the call never returns -/
theorem randomPoly_stalls {v : List Var} {deg len : ℕ} {addNum : Bool} {first : ℕ} {draws : List ℕ} {cs : List ℤ} (hlen : 0 < len) (ht : 0 < countUpto v.length deg)
    (hcs : ∀ c ∈ cs, (c : R) = 0) : randomPoly R vc mc v deg len addNum first draws cs = none := by
  have h1 : nonzeroCoeff R cs = none := by
    induction cs with
    | nil => rfl
    | cons c cs ih =>
      rw [nonzeroCoeff, if_neg (by simpa using hcs c (by simp))]
      exact ih fun c hc => hcs c (List.mem_cons_of_mem _ hc)
  unfold randomPoly
  simp only
  rw [if_neg (by split <;> omega)]
  rw [chosen, attach, h1]

end CLPoly.Random
