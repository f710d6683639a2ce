import Verif.Groebner.Main

/-! # Interreduction and the whole algorithm over a field -/

namespace CLPoly.GB
open CLPoly Mono MvPolynomial

variable {vc : Var → Var → Bool} {mc : Mono → Mono → Bool} {K : Type*} [Field K] [DecidableEq K]
variable {L : Type*} [LinearOrder L] {r : (Var →₀ ℕ) → L} {V : Finset Var}

/-- every nonzero member of `I` has a leading exponent divisible by one of `l` -/
def GBl (r : (Var →₀ ℕ) → L) (l : List (Var →₀ ℕ)) (I : Ideal (MvPolynomial Var K)) : Prop :=
  ∀ f ∈ I, f ≠ 0 → ∃ e, coeff e f ≠ 0 ∧ (∀ s, coeff s f ≠ 0 → r s ≤ r e) ∧ ∃ x ∈ l, x ≤ e

/-- no leading exponent divides another -/
def Minimal (G : List (PV Mono K)) : Prop :=
  ∀ i j, i < G.length → j < G.length → i ≠ j → ¬ expo (lm (at' G j)) ≤ expo (lm (at' G i))

/-- the element at `i` has no term divisible by the leading exponent of another element -/
def RedAt (G : List (PV Mono K)) (i : Nat) : Prop :=
  ∀ j, j < G.length → i ≠ j → ∀ t ∈ at' G i, ¬ expo (lm (at' G j)) ≤ expo t.1

theorem at_eq {G : List (PV Mono K)} {k : Nat} (h : k < G.length) : at' G k = G[k] := by
  unfold at'; rw [List.getD_eq_getElem _ _ h]

theorem at_eraseIdx {G : List (PV Mono K)} {i a : Nat} (ha : a < (G.eraseIdx i).length) :
    ∃ a', a' < G.length ∧ a' ≠ i ∧ at' (G.eraseIdx i) a = at' G a' ∧ a' = if a < i then a else a + 1 := by
  have hl := List.length_eraseIdx_le G i
  rw [at_eq ha, List.getElem_eraseIdx]
  split
  · rename_i h
    exact ⟨a, by omega, by omega, by rw [at_eq (by omega)], rfl⟩
  · rename_i h
    have : a + 1 < G.length := by
      by_contra hc
      by_cases hi : i < G.length
      · rw [List.length_eraseIdx_of_lt hi] at ha; omega
      · rw [List.eraseIdx_of_length_le (by omega)] at ha; omega
    exact ⟨a + 1, this, by omega, by rw [at_eq this], rfl⟩

theorem mem_eraseIdx_at {G : List (PV Mono K)} {i : Nat} {g : PV Mono K} : g ∈ G.eraseIdx i ↔ ∃ j, j < G.length ∧ j ≠ i ∧ at' G j = g := by
  rw [List.mem_eraseIdx_iff_getElem]
  constructor
  · rintro ⟨j, hj, hne, e⟩; exact ⟨j, hj, hne, by rw [at_eq hj, e]⟩
  · rintro ⟨j, hj, hne, e⟩; exact ⟨j, hj, hne, by rw [← at_eq hj, e]⟩

theorem redundant_iff (ho : VarOrd vc) {G : List (PV Mono K)} (hG : ∀ g ∈ G, Monic vc mc V g) {i : Nat} (hi : i < G.length) :
    redundant vc G i = true ↔ ∃ j, j < G.length ∧ j ≠ i ∧ expo (lm (at' G j)) ≤ expo (lm (at' G i)) := by
  have vat : ∀ {k}, k < G.length → Valid vc (lm (at' G k)) := fun hk => ((hG _ (at_mem hk)).okin.lm_valid (hG _ (at_mem hk)).ne).1
  unfold redundant
  rw [List.any_eq_true]
  simp only [List.mem_range, Bool.and_eq_true, decide_eq_true_eq]
  constructor
  · rintro ⟨j, hj, hne, hd⟩; exact ⟨j, hj, hne, (isSome_divExact ho (vat hi) (vat hj)).1 hd⟩
  · rintro ⟨j, hj, hne, hd⟩; exact ⟨j, hj, hne, (isSome_divExact ho (vat hi) (vat hj)).2 hd⟩

theorem dropRedundant_spec (ho : VarOrd vc) (G : List (PV Mono K)) (i : Nat) (hG : ∀ g ∈ G, Monic vc mc V g)
    (hi : ∀ a, a < i → a < G.length → redundant vc G a = false) :
    (∀ g ∈ dropRedundant vc G i, g ∈ G) ∧ Minimal (dropRedundant vc G i) ∧
    ∀ g ∈ G, ∃ g' ∈ dropRedundant vc G i, expo (lm g') ≤ expo (lm g) := by
  fun_induction dropRedundant vc G i with
  | case1 G i hlt hred ih =>
    have hG' : ∀ g ∈ G.eraseIdx i, Monic vc mc V g := fun g hg => hG g (List.mem_of_mem_eraseIdx hg)
    obtain ⟨h1, h2, h3⟩ := ih hG' (by
      intro a ha hl
      rw [Bool.eq_false_iff]
      intro hc
      obtain ⟨j, hj, hne, hle⟩ := (redundant_iff ho hG' hl).1 hc
      obtain ⟨a', ha', _, ea, fa⟩ := at_eraseIdx hl
      obtain ⟨j', hj', _, ej, fj⟩ := at_eraseIdx hj
      rw [if_pos ha] at fa
      have := hi a ha (by omega)
      rw [Bool.eq_false_iff] at this
      refine this ((redundant_iff ho hG (by omega)).2 ⟨j', hj', ?_, ?_⟩)
      · rw [fj]; split <;> omega
      · rw [← ej]; rw [fa] at ea; rw [← ea]; exact hle)
    refine ⟨fun g hg => List.mem_of_mem_eraseIdx (h1 g hg), h2, fun g hg => ?_⟩
    by_cases hge : g ∈ G.eraseIdx i
    · exact h3 g hge
    · obtain ⟨k, hk, rfl⟩ := mem_at hg
      have hki : k = i := by
        by_contra hne
        exact hge (mem_eraseIdx_at.2 ⟨k, hk, hne, rfl⟩)
      subst hki
      obtain ⟨j, hj, hne, hle⟩ := (redundant_iff ho hG hk).1 hred
      obtain ⟨g', hg', hle'⟩ := h3 _ (mem_eraseIdx_at.2 ⟨j, hj, hne, rfl⟩)
      exact ⟨g', hg', hle'.trans hle⟩
  | case2 G i hlt hred ih =>
    refine ih hG fun a ha hl => ?_
    rcases Nat.lt_or_ge a i with h | h
    · exact hi a h hl
    · rw [show a = i by omega]; simpa using hred
  | case3 G i hlt =>
    refine ⟨fun g hg => hg, ?_, fun g hg => ⟨g, hg, le_rfl⟩⟩
    intro a b ha hb hne hle
    have := hi a (by omega) ha
    rw [Bool.eq_false_iff] at this
    exact this ((redundant_iff ho hG ha).2 ⟨b, hb, fun h => hne h.symm, hle⟩)

theorem at_set_eq {G : List (PV Mono K)} {i : Nat} (hi : i < G.length) (g : PV Mono K) : at' (G.set i g) i = g := by
  rw [at_eq (by simpa using hi), List.getElem_set_self]

theorem at_set_ne {G : List (PV Mono K)} {i j : Nat} (hj : j < G.length) (hne : i ≠ j) (g : PV Mono K) : at' (G.set i g) j = at' G j := by
  rw [at_eq (by simpa using hj), List.getElem_set_ne hne, at_eq hj]

theorem reduceAll_spec (S : Setup vc mc r) {I : Ideal (MvPolynomial Var K)} : ∀ (k : Nat) (G : List (PV Mono K)), k ≤ G.length →
    (∀ g ∈ G, Monic vc mc V g) → Minimal G → (∀ g ∈ G, val g ∈ I) → (∀ a, a < G.length - k → RedAt G a) →
    ∃ G', (∃ N, ∀ n ≥ N, reduceAll vc mc (· / ·) n k G = some (.ok G')) ∧ lms G' = lms G ∧
      (∀ g ∈ G', Monic vc mc V g) ∧ (∀ g ∈ G', val g ∈ I) ∧ ∀ a, a < G'.length → RedAt G' a
  | 0, G, _, hm, _, hI, hr => ⟨G, ⟨0, fun _ _ => rfl⟩, rfl, hm, hI, fun a ha => hr a (by omega)⟩
  | k + 1, G, hk, hm, hmin, hI, hr => by
    obtain ⟨i, hi⟩ : ∃ i, i = G.length - (k + 1) := ⟨_, rfl⟩
    have hil : i < G.length := by omega
    have mi := hm _ (at_mem hil)
    have hG' : ∀ g ∈ G.eraseIdx i, OKin vc mc V g ∧ g ≠ [] := fun g hg =>
      have := hm g (List.mem_of_mem_eraseIdx hg)
      ⟨this.okin, this.ne⟩
    obtain ⟨t, p, hp⟩ : ∃ t p, at' G i = t :: p := by
      cases h : at' G i with
      | nil => exact absurd h mi.ne
      | cons t p => exact ⟨t, p, rfl⟩
    have vt : Valid vc t.1 := mi.okin.ok.monos t (by rw [hp]; simp)
    obtain ⟨out, H⟩ := nf_exists S.M S.hr S.hrm hG' (at' G i) mi.okin
    obtain ⟨out', H'⟩ := nf_exists S.M S.hr S.hrm hG' p (by have := mi.okin; rw [hp] at this; exact this.tail)
    have hout : out = t :: out' := by
      rw [hp] at H
      refine H.head H' (fun g hg => (hG' g hg).2) fun g hg => ?_
      obtain ⟨j, hj, hne, rfl⟩ := mem_eraseIdx_at.1 hg
      rw [divExact_none S.M.vo vt ((hm _ (at_mem hj)).okin.lm_valid (hm _ (at_mem hj)).ne).1]
      have := hmin i j hil hj (Ne.symm hne)
      rw [hp] at this; exact this
    have lmo : lm out = lm (at' G i) := by rw [hout, hp]; rfl
    have lco : lc out = 1 := by rw [← mi.lc, hout, hp]; rfl
    have mo : Monic vc mc V out := ⟨H.ok, by rw [hout]; simp, lco⟩
    obtain ⟨N, hN⟩ := H.normalForm
    have hlen : (G.set i out).length = G.length := by simp
    have lmset : ∀ j, j < G.length → lm (at' (G.set i out) j) = lm (at' G j) := by
      intro j hj
      by_cases e : i = j
      · subst e; rw [at_set_eq hil, lmo]
      · rw [at_set_ne hj e]
    have memset : ∀ g ∈ G.set i out, g = out ∨ g ∈ G := fun g hg => by
      rcases List.mem_or_eq_of_mem_set hg with h | h
      · exact .inr h
      · exact .inl h
    obtain ⟨G', ⟨N', hN'⟩, e1, e2, e3, e4⟩ := reduceAll_spec S (I := I) k (G.set i out) (by simp; omega)
      (fun g hg => by rcases memset g hg with rfl | h; exacts [mo, hm g h])
      (by
        intro a b ha hb hne
        rw [hlen] at ha hb
        rw [lmset a ha, lmset b hb]; exact hmin a b ha hb hne)
      (fun g hg => by
        rcases memset g hg with rfl | h
        · have h1 := H.ideal S mi.okin
          have h2 : idealOf (G.eraseIdx i) ≤ I := idealOf_le fun g hg => hI g (List.mem_of_mem_eraseIdx hg)
          have := Ideal.sub_mem _ (hI _ (at_mem hil)) (h2 h1)
          rwa [sub_sub_cancel] at this
        · exact hI g h)
      (by
        intro a ha j hj hne x hx
        rw [hlen] at ha hj
        rw [lmset j hj]
        by_cases e : i = a
        · subst e
          rw [at_set_eq hil] at hx
          rw [← divExact_none S.M.vo (H.ok.ok.monos x hx) ((hm _ (at_mem hj)).okin.lm_valid (hm _ (at_mem hj)).ne).1]
          exact H.reduced x hx _ (mem_eraseIdx_at.2 ⟨j, hj, Ne.symm hne, rfl⟩)
        · rw [at_set_ne (by omega) e] at hx
          exact hr a (by omega) j hj hne x hx)
    refine ⟨G', ⟨N + N', fun n hn => ?_⟩, ?_, e2, e3, e4⟩
    · rw [reduceAll]
      simp only [← hi]
      rw [hN n (by omega)]
      simp only [makeMonic_of lco]
      exact hN' n (by omega)
    · rw [e1]
      unfold lms
      apply List.ext_getElem (by simp)
      intro j h1 h2
      have hj : j < G.length := by simpa using h2
      rw [List.getElem_map, List.getElem_map, ← at_eq, ← at_eq, lmset j hj]

/-- an element of the ideal reduces to zero -/
theorem nf_zero (S : Setup vc mc r) {I : Ideal (MvPolynomial Var K)} {G : List (PV Mono K)} (hG : ∀ g ∈ G, Monic vc mc V g)
    (hI : ∀ g ∈ G, val g ∈ I) (hgb : GBl r (lms G) I) {f out : PV Mono K} (hf : OKin vc mc V f) (H : NF vc mc r V G f out) :
    val f ∈ I ↔ out = [] := by
  have h1 := idealOf_le hI (H.ideal S hf)
  constructor
  · intro hfI
    by_contra h0
    have h2 : val out ∈ I := by
      have := Ideal.sub_mem _ hfI h1
      rwa [sub_sub_cancel] at this
    have hc := coeff_lm S.M H.ok h0
    have hlc : lc out ≠ 0 := by
      cases out with
      | nil => exact absurd rfl h0
      | cons t g => exact H.ok.ok.canon.2 t (by simp)
    have hv : val out ≠ 0 := by
      intro h; rw [h, coeff_zero] at hc; exact hlc hc.symm
    obtain ⟨e, he, hmax, x, hx, hxe⟩ := hgb _ h2 hv
    obtain ⟨t, ht, rfl⟩ := coeff_ne he
    obtain ⟨g, hg, rfl⟩ := List.mem_map.1 hx
    have := H.reduced t ht g hg
    rw [divExact_none S.M.vo (H.ok.ok.monos t ht) ((hG g hg).okin.lm_valid (hG g hg).ne).1] at this
    exact this hxe
  · rintro rfl
    rwa [val_nil, sub_zero] at h1

/-- after interreduction -/
structure RGB (vc : Var → Var → Bool) (mc : Mono → Mono → Bool) (r : (Var →₀ ℕ) → L) (V : Finset Var) (I : Ideal (MvPolynomial Var K)) (G : List (PV Mono K)) : Prop where
  monic : ∀ g ∈ G, Monic vc mc V g
  span : idealOf G = I
  gb : GBl r (lms G) I
  red : ∀ a, a < G.length → RedAt G a

theorem interreduce_spec (S : Setup vc mc r) {I : Ideal (MvPolynomial Var K)} {st : BSt K} (h : Inv vc mc r V I st) (hp : st.pairs = []) :
    ∃ G', (∃ N, ∀ n ≥ N, interreduce vc mc (· / ·) n st.G = some (.ok G')) ∧ RGB vc mc r V I G' := by
  have gb : GBl r (lms st.G) I := by
    intro f hf f0
    rw [← h.span, ← idealOf_items] at hf
    have hS : ∀ a ∈ items st.G, ∀ c ∈ items st.G, sp a c ∈ below r V (items st.G) (r (a.lm ⊔ c.lm)) := by
      intro a ha c hc
      have := h.cov a ha c hc
      rw [hp] at this
      have e : pend r V (pset st.G ([] : List CP)) (r (a.lm ⊔ c.lm)) = ⊥ := by
        unfold pend
        rw [Submodule.span_eq_bot]
        rintro _ ⟨p, ⟨q, hq, _⟩, _⟩
        cases hq
      unfold W at this
      rwa [e, sup_bot_eq] at this
    rcases buchberger_ideal S.hr (B := items st.G) (V := V) (by rintro _ ⟨g, hg, rfl⟩; exact (h.monic g hg).toIt S) hS hf with h0 | h0
    · exact absurd h0 f0
    · obtain ⟨e, h1, h2, _, ⟨g, hg, rfl⟩, h3⟩ := h0
      exact ⟨e, h1, h2, expo (lm g), List.mem_map.2 ⟨g, hg, rfl⟩, h3⟩
  obtain ⟨d1, d2, d3⟩ := dropRedundant_spec S.M.vo st.G 0 h.monic (by omega)
  have hGI : ∀ g ∈ st.G, val g ∈ I := fun g hg => h.span ▸ mem_idealOf hg
  obtain ⟨G', run, e1, e2, e3, e4⟩ := reduceAll_spec S (I := I) (dropRedundant vc st.G 0).length (dropRedundant vc st.G 0) le_rfl
    (fun g hg => h.monic g (d1 g hg)) d2 (fun g hg => hGI g (d1 g hg)) (by omega)
  have gb' : GBl r (lms G') I := by
    rw [e1]
    intro f hf f0
    obtain ⟨e, h1, h2, x, hx, hxe⟩ := gb f hf f0
    obtain ⟨g, hg, rfl⟩ := List.mem_map.1 hx
    obtain ⟨g', hg', hle⟩ := d3 g hg
    exact ⟨e, h1, h2, _, List.mem_map.2 ⟨g', hg', rfl⟩, hle.trans hxe⟩
  refine ⟨G', run, e2, le_antisymm (idealOf_le e3) ?_, gb', e4⟩
  rw [← h.span]
  refine idealOf_le fun g hg => ?_
  obtain ⟨out, H⟩ := nf_exists S.M S.hr S.hrm (fun g hg => ⟨(e2 g hg).okin, (e2 g hg).ne⟩) g (h.monic g hg).okin
  have h0 := (nf_zero S e2 e3 gb' (h.monic g hg).okin H).1 (hGI g hg)
  have := H.ideal S (h.monic g hg).okin
  rwa [h0, val_nil, sub_zero] at this

theorem fold_inv (S : Setup vc mc r) {sort : List CP → List CP} (hsort : ∀ l, (sort l).Perm l) :
    ∀ (Gs : List (PV Mono K)) (st : BSt K), (∀ g ∈ Gs, Monic vc mc V g) → Inv vc mc r V (idealOf st.G) st →
    (Gs.foldl (fun st g => update vc sort st g (polyDeg g)) st).G = st.G ++ Gs ∧
    Inv vc mc r V (idealOf (st.G ++ Gs)) (Gs.foldl (fun st g => update vc sort st g (polyDeg g)) st)
  | [], st, _, h => by simpa using h
  | g :: Gs, st, hm, h => by
    have h1 : Inv vc mc r V (idealOf (st.G ++ [g])) (update vc sort st g (polyDeg g)) := by
      refine update_inv S hsort h.monic (hm g (by simp)) h.idx ?_ rfl
      intro a ha c hc
      exact W_mono_set (Set.subset_insert _ _) subset_rfl _ (h.cov a ha c hc)
    have := fold_inv S hsort Gs (update vc sort st g (polyDeg g)) (fun x hx => hm x (by simp [hx])) h1
    rw [List.foldl_cons]
    have e : st.G ++ g :: Gs = (update vc sort st g (polyDeg g)).G ++ Gs := by
      show _ = (st.G ++ [g]) ++ Gs
      simp
    rw [e]; exact this

/-- `__buchberger` over a field -/
theorem buchbergerAlg_spec (S : Setup vc mc r) {sort : List CP → List CP} (hsort : ∀ l, (sort l).Perm l)
    (F : List (PV Mono K)) (hF : ∀ f ∈ F, OKin vc mc V f) :
    ∃ G, (∃ N, ∀ n ≥ N, buchbergerAlg vc mc (· / ·) sort n F = some (.ok G)) ∧ RGB vc mc r V (idealOf F) G := by
  obtain ⟨G0, hG0⟩ : ∃ G0, G0 = (F.filter fun f => f ≠ []).map (makeMonic (· / ·)) := ⟨_, rfl⟩
  have m0 : ∀ g ∈ G0, Monic vc mc V g := by
    intro g hg
    rw [hG0] at hg
    obtain ⟨f, hf, rfl⟩ := List.mem_map.1 hg
    obtain ⟨h1, h2⟩ := List.mem_filter.1 hf
    exact (makeMonic_spec (hF f h1) (by simpa using h2)).1
  have i0 : idealOf G0 = idealOf F := by
    refine le_antisymm (idealOf_le ?_) (idealOf_le ?_)
    · intro g hg
      rw [hG0] at hg
      obtain ⟨f, hf, rfl⟩ := List.mem_map.1 hg
      obtain ⟨h1, h2⟩ := List.mem_filter.1 hf
      rw [(makeMonic_spec (hF f h1) (by simpa using h2)).2.2.1]
      exact Ideal.mul_mem_left _ _ (mem_idealOf h1)
    · intro f hf
      by_cases h0 : f = []
      · rw [h0, val_nil]; exact Ideal.zero_mem _
      · obtain ⟨_, _, v, c0⟩ := makeMonic_spec (hF f hf) h0
        have : val f = C (lc f) * val (makeMonic (· / ·) f) := by
          rw [v, ← mul_assoc, ← C_mul, mul_inv_cancel₀ c0, C_1, one_mul]
        rw [this]
        refine Ideal.mul_mem_left _ _ (mem_idealOf ?_)
        rw [hG0]; exact List.mem_map.2 ⟨f, List.mem_filter.2 ⟨hf, by simpa using h0⟩, rfl⟩
  have single : ∀ (g : PV Mono K) (s : List Int), Monic vc mc V g → Inv vc mc r V (idealOf [g]) ⟨[g], [], s⟩ := by
    intro g s hg
    refine ⟨by intro x hx; rw [List.mem_singleton.1 hx]; exact hg, by simp, ?_, rfl, by simp⟩
    rintro _ ⟨x, hx, rfl⟩ _ ⟨y, hy, rfl⟩
    rw [List.mem_singleton.1 hx, List.mem_singleton.1 hy, sp_self]; exact Submodule.zero_mem _
  rw [← i0]
  unfold buchbergerAlg
  rw [← hG0]
  match G0, m0 with
  | [], _ =>
    refine ⟨[], ⟨0, fun _ _ => rfl⟩, by simp, rfl, ?_, by simp⟩
    intro f hf f0
    have : idealOf ([] : List (PV Mono K)) = ⊥ := by
      unfold idealOf; rw [Ideal.span_eq_bot]; rintro _ ⟨_, h, _⟩; cases h
    rw [this] at hf
    exact absurd hf f0
  | [g], m0 =>
    exact interreduce_spec S (single g [] (m0 g (by simp))) rfl
  | g0 :: g1 :: Gs, m0 =>
    obtain ⟨f1, f2⟩ := fold_inv S hsort (g1 :: Gs) ⟨[g0], [], [polyDeg g0]⟩ (fun x hx => m0 x (by simp [hx])) (single g0 _ (m0 g0 (by simp)))
    obtain ⟨st', ⟨N, hN⟩, inv, hp⟩ := mainLoop_spec S hsort _ f2
    obtain ⟨G', ⟨N', hN'⟩, rgb⟩ := interreduce_spec S inv hp
    refine ⟨G', ⟨N + N', fun n hn => ?_⟩, rgb⟩
    show (match mainLoop vc mc (· / ·) sort n ((g1 :: Gs).foldl (fun st g => update vc sort st g (polyDeg g)) ⟨[g0], [], [polyDeg g0]⟩) with
      | none => none
      | some (.ok st) => interreduce vc mc (· / ·) n st.G
      | some _ => some .ub) = _
    rw [hN n (by omega)]
    exact hN' n (by omega)

/-! ## the reduced basis is unique -/

theorem lm_mem_of (S : Setup vc mc r) {I : Ideal (MvPolynomial Var K)} {G : List (PV Mono K)} (h : RGB vc mc r V I G) {V' : Finset Var}
    {f : PV Mono K} (hf : Monic vc mc V' f) (hfI : val f ∈ I) : ∃ g ∈ G, expo (lm g) ≤ expo (lm f) := by
  have hc := coeff_lm S.M hf.okin hf.ne
  rw [hf.lc] at hc
  obtain ⟨e, he, hmax, x, hx, hxe⟩ := h.gb _ hfI (by intro h0; rw [h0, coeff_zero] at hc; exact zero_ne_one hc)
  obtain ⟨g, hg, rfl⟩ := List.mem_map.1 hx
  obtain ⟨t, ht, rfl⟩ := coeff_ne he
  have h1 := le_lm S hf.okin ht
  have h2 := hmax (expo (lm f)) (by rw [hc]; exact one_ne_zero)
  rw [S.hr.inj (le_antisymm h1 h2)] at hxe
  exact ⟨g, hg, hxe⟩

theorem RGB.unique (S : Setup vc mc r) {I : Ideal (MvPolynomial Var K)} {G G' : List (PV Mono K)} {V' : Finset Var} (h : RGB vc mc r V I G)
    (h' : RGB vc mc r V' I G') : ∀ g ∈ G, g ∈ G' := by
  intro g hg
  have hm := h.monic g hg
  obtain ⟨g', hg', l1⟩ := lm_mem_of S h' hm (h.span ▸ mem_idealOf hg)
  have hm' := h'.monic g' hg'
  obtain ⟨g2, hg2, l2⟩ := lm_mem_of S h hm' (h'.span ▸ mem_idealOf hg')
  have lmred : ∀ {V : Finset Var} {G : List (PV Mono K)}, RGB vc mc r V I G → ∀ {a b}, a ∈ G → b ∈ G → ∀ t ∈ a, expo (lm b) ≤ expo t.1 → b = a := by
    intro V G h a b ha hb t ht hle
    obtain ⟨i, hi, rfl⟩ := mem_at ha
    obtain ⟨j, hj, rfl⟩ := mem_at hb
    by_cases e : i = j
    · rw [e]
    · exact absurd hle (h.red i hi j hj e t ht)
  have lmin : ∀ {V : Finset Var} {g : PV Mono K}, Monic vc mc V g → ∃ t ∈ g, t.1 = lm g := by
    intro V g hg
    cases g with
    | nil => exact absurd rfl hg.ne
    | cons t g => exact ⟨t, by simp, rfl⟩
  have e2 : g2 = g := by
    obtain ⟨t, ht, e⟩ := lmin hm
    exact lmred h hg hg2 t ht (e ▸ l2.trans l1)
  rw [e2] at l2
  have elm : expo (lm g') = expo (lm g) := le_antisymm l1 l2
  suffices val g = val g' by
    rw [PolyOK.ext S.M hm.okin.ok hm'.okin.ok this]; exact hg'
  by_contra hne
  have hd : val g - val g' ∈ I := Ideal.sub_mem _ (h.span ▸ mem_idealOf hg) (h'.span ▸ mem_idealOf hg')
  obtain ⟨e, he, hmax, x, hx, hxe⟩ := h.gb _ hd (sub_ne_zero.2 hne)
  obtain ⟨g3, hg3, rfl⟩ := List.mem_map.1 hx
  have e_ne : e ≠ expo (lm g) := by
    rintro rfl
    rw [coeff_sub, coeff_lm S.M hm.okin hm.ne, ← elm, coeff_lm S.M hm'.okin hm'.ne, hm.lc, hm'.lc, sub_self] at he
    exact he rfl
  have contra : ∀ {V : Finset Var} {G : List (PV Mono K)} {a b : PV Mono K}, RGB vc mc r V I G → a ∈ G → b ∈ G → expo (lm a) = expo (lm g) → coeff e (val a) ≠ 0 →
      expo (lm b) ≤ e → False := by
    intro V G a b h ha hb hlm hc hle
    obtain ⟨t, ht, rfl⟩ := coeff_ne hc
    have := lmred h ha hb t ht hle
    subst this
    have h1 := le_lm S (h.monic b hb).okin ht
    have h2 := S.hr.dom _ _ hle
    exact e_ne (by rw [← hlm]; exact S.hr.inj (le_antisymm h1 h2))
  by_cases hc : coeff e (val g) = 0
  · have hc' : coeff e (val g') ≠ 0 := by
      intro h0; rw [coeff_sub, hc, h0, sub_self] at he; exact he rfl
    obtain ⟨g4, hg4, l4⟩ := lm_mem_of S h' (h.monic g3 hg3) (h.span ▸ mem_idealOf hg3)
    exact contra h' hg' hg4 elm hc' (l4.trans hxe)
  · exact contra h hg hg3 rfl hc hxe

end CLPoly.GB
