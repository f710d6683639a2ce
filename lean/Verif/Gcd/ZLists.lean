import Verif.Gcd.Cont
import Verif.Upoly.GcdZ
import Mathlib.Algebra.MvPolynomial.Division

/-! # Monomial and constant gcds, Chinese remaindering -/

namespace CLPoly
namespace Mgcd
open Mono MvPolynomial Run
open Dense (IsGcd)

variable {vc : Var → Var → Bool}

theorem monomial_dvd_iff {s : Var →₀ ℕ} {a : ℤ} {f : MvPolynomial Var ℤ} : monomial s a ∣ f ↔ ∀ u ∈ f.support, s ≤ u ∧ a ∣ coeff u f := by
  constructor
  · rintro ⟨k, rfl⟩ u hu
    rw [mem_support_iff, coeff_monomial_mul'] at hu
    rw [coeff_monomial_mul']
    split at hu
    · rename_i h; rw [if_pos h]; exact ⟨h, dvd_mul_right _ _⟩
    · exact absurd rfl hu
  · intro h
    rw [f.as_sum]
    exact Finset.dvd_sum fun u hu => monomial_dvd_monomial.2 ⟨.inr (h u hu).1, (h u hu).2⟩

/-- in terms of the term list -/
theorem monomial_dvd_list (ho : VarOrd vc) {p : PV Mono ℤ} (hp : LP vc p) {s : Var →₀ ℕ} {a : ℤ} : monomial s a ∣ val p ↔ ∀ t ∈ p, s ≤ expo t.1 ∧ a ∣ t.2 := by
  have M := lex_ord ho
  rw [monomial_dvd_iff]
  constructor
  · intro h t ht
    have := h (expo t.1) ((hp.mem_support M).2 ⟨t, ht, rfl⟩)
    rwa [hp.coeff_mem M ht] at this
  · intro h u hu
    obtain ⟨t, ht, rfl⟩ := (hp.mem_support M).1 hu
    rw [hp.coeff_mem M ht]
    exact h t ht

theorem expo_le_iff {a b : Mono} (ha : Valid vc a) (hb : Valid vc b) : expo a ≤ expo b ↔ ∀ v, E a.data v ≤ E b.data v := by
  rw [Finsupp.le_def]
  refine forall_congr' fun v => ?_
  rw [← ha.expo_eq, ← hb.expo_eq]
  exact_mod_cast Iff.rfl

/-- the fold of `termGcd` -/
theorem foldGcd_spec (ho : VarOrd vc) : ∀ (l : PV Mono ℤ) (t : Mono × ℤ), (∀ u ∈ l, Valid vc u.1) → Valid vc t.1 → t.2 ≠ 0 →
    ∀ r, r = l.foldl (fun (a : Mono × ℤ) u => (Mono.gcd vc a.1 u.1, (Int.gcd a.2 u.2 : ℤ))) t →
    Valid vc r.1 ∧ r.2 ≠ 0 ∧ (∀ u ∈ t :: l, expo r.1 ≤ expo u.1 ∧ r.2 ∣ u.2) ∧ ∀ (s : Var →₀ ℕ) (a : ℤ), (∀ u ∈ t :: l, s ≤ expo u.1 ∧ a ∣ u.2) → s ≤ expo r.1 ∧ a ∣ r.2 := by
  intro l
  induction l with
  | nil =>
    intro t _ ht h0 r hr
    rw [List.foldl_nil] at hr
    subst hr
    exact ⟨ht, h0, by simp, fun s a h => h r (by simp)⟩
  | cons u l ih =>
    intro t hl ht h0 r hr
    rw [List.foldl_cons] at hr
    obtain ⟨g1, g2⟩ := gcd_valid ho ht (hl u (by simp))
    have hne : ((Int.gcd t.2 u.2 : ℕ) : ℤ) ≠ 0 := by
      intro h
      have : Int.gcd t.2 u.2 = 0 := by exact_mod_cast h
      exact h0 (Int.gcd_eq_zero_iff.1 this).1
    obtain ⟨r1, r2, r3, r4⟩ := ih _ (fun w hw => hl w (by simp [hw])) g1 hne r hr
    have hle : ∀ w ∈ [t, u], expo (Mono.gcd vc t.1 u.1) ≤ expo w.1 ∧ ((Int.gcd t.2 u.2 : ℕ) : ℤ) ∣ w.2 := by
      intro w hw
      rcases List.mem_cons.1 hw with rfl | hw
      · refine ⟨(expo_le_iff g1 ht).2 fun v => by rw [g2]; exact min_le_left _ _, Int.gcd_dvd_left _ _⟩
      · rw [List.mem_singleton.1 hw]
        refine ⟨(expo_le_iff g1 (hl u (by simp))).2 fun v => by rw [g2]; exact min_le_right _ _, Int.gcd_dvd_right _ _⟩
    have hr0 := r3 _ List.mem_cons_self
    refine ⟨r1, r2, fun w hw => ?_, fun s a h => r4 s a fun w hw => ?_⟩
    · rcases List.mem_cons.1 hw with rfl | hw
      · exact ⟨hr0.1.trans (hle w (by simp)).1, hr0.2.trans (hle w (by simp)).2⟩
      · rcases List.mem_cons.1 hw with rfl | hw
        · exact ⟨hr0.1.trans (hle w (by simp)).1, hr0.2.trans (hle w (by simp)).2⟩
        · exact r3 w (List.mem_cons_of_mem _ hw)
    · rcases List.mem_cons.1 hw with rfl | hw
      · have h1 := h t (by simp)
        have h2 := h u (by simp)
        refine ⟨?_, Int.dvd_coe_gcd h1.2 h2.2⟩
        rw [Finsupp.le_def]
        intro v
        have e1 := Finsupp.le_def.1 h1.1 v
        have e2 := Finsupp.le_def.1 h2.1 v
        have e3 := g2 v
        have e4 := g1.expo_eq v
        have e5 := ht.expo_eq v
        have e6 := (hl u (by simp)).expo_eq v
        show s v ≤ expo (Mono.gcd vc t.1 u.1) v
        rw [← e4, ← e5, ← e6] at e3
        have : expo (Mono.gcd vc t.1 u.1) v = min (expo t.1 v) (expo u.1 v) := by exact_mod_cast e3
        rw [this]; exact le_min e1 e2
      · exact h w (by simp [hw])

theorem val_single {R : Type*} [CommRing R] (m : Mono) (c : R) : val [(m, c)] = monomial (expo m) c := by rw [val_cons, val_nil, add_zero]

/-- an operand with a single term -/
theorem termGcd_spec (ho : VarOrd vc) {F G : PV Mono ℤ} (hF : LP vc F) (hG : LP vc G) (F0 : F ≠ []) (h1 : F.length = 1 ∨ G.length = 1) :
    LP vc (termGcd vc F G) ∧ IsGcd (val (termGcd vc F G)) (val F) (val G) := by
  have M := lex_ord ho
  obtain ⟨t, l, rfl⟩ := List.exists_cons_of_ne_nil F0
  obtain ⟨r, hr⟩ : ∃ r, r = (l ++ G).foldl (fun (a : Mono × ℤ) u => (Mono.gcd vc a.1 u.1, (Int.gcd a.2 u.2 : ℤ))) t := ⟨_, rfl⟩
  have e : termGcd vc (t :: l) G = [r] := by rw [hr]; rfl
  obtain ⟨r1, r2, r3, r4⟩ := foldGcd_spec ho (l ++ G) t (fun u hu => by
    rcases List.mem_append.1 hu with hu | hu
    · exact hF.monos u (by simp [hu])
    · exact hG.monos u hu) (hF.monos t (by simp)) (hF.canon.2 t (by simp)) r hr
  rw [e]
  have hv : val [r] = monomial (expo r.1) r.2 := val_single r.1 r.2
  refine ⟨.single r1 r2, ?_, ?_, ?_⟩
  · rw [hv, monomial_dvd_list ho hF]
    exact fun u hu => r3 u (by rcases List.mem_cons.1 hu with rfl | hu <;> simp [*])
  · rw [hv, monomial_dvd_list ho hG]
    exact fun u hu => r3 u (by simp [hu])
  · intro d d1 d2
    have mono : ∃ s a, d = monomial s a := by
      rcases h1 with h1 | h1
      · have : l = [] := by simpa using h1
        subst this
        rw [show val [t] = monomial (expo t.1) t.2 from val_single t.1 t.2, dvd_monomial_iff_exists (hF.canon.2 t (by simp))] at d1
        obtain ⟨s, a, _, _, h⟩ := d1
        exact ⟨s, a, h⟩
      · match G, h1, hG, d2 with
        | [g], _, hG, d2 =>
          rw [show val [g] = monomial (expo g.1) g.2 from val_single g.1 g.2, dvd_monomial_iff_exists (hG.canon.2 g (by simp))] at d2
          obtain ⟨s, a, _, _, h⟩ := d2
          exact ⟨s, a, h⟩
    obtain ⟨s, a, rfl⟩ := mono
    rw [monomial_dvd_list ho hF] at d1
    rw [monomial_dvd_list ho hG] at d2
    have := r4 s a fun u hu => by
      rcases List.mem_cons.1 hu with rfl | hu
      · exact d1 u (by simp)
      · rcases List.mem_append.1 hu with hu | hu
        · exact d1 u (by simp [hu])
        · exact d2 u hu
    rw [hv]
    exact monomial_dvd_monomial.2 ⟨.inr this.1, this.2⟩

theorem intFold_spec : ∀ (l : PV Mono ℤ) (c : ℤ), ∀ a : ℤ, a ∣ l.foldl (fun (a : ℤ) u => (Int.gcd a u.2 : ℤ)) c ↔ a ∣ c ∧ ∀ t ∈ l, a ∣ t.2 := by
  intro l
  induction l with
  | nil => intro c a; simp
  | cons u l ih =>
    intro c a
    rw [List.foldl_cons, ih, Int.dvd_coe_gcd_iff]
    simp [and_assoc]

/-- one operand is a constant: the gcd of all coefficients -/
theorem intGcd_spec (ho : VarOrd vc) {F G : PV Mono ℤ} (hF : LP vc F) (hG : LP vc G) (F0 : F ≠ []) (G0 : G ≠ []) (h : (val F).vars = ∅ ∨ (val G).vars = ∅) :
    LP vc [(Mono.one, intGcd F G)] ∧ IsGcd (val [(Mono.one, intGcd F G)]) (val F) (val G) := by
  have M := lex_ord ho
  have key : ∀ a : ℤ, a ∣ intGcd F G ↔ (∀ t ∈ F, a ∣ t.2) ∧ ∀ t ∈ G, a ∣ t.2 := by
    intro a
    rw [intGcd, intFold_spec]
    constructor
    · intro h
      exact ⟨fun t ht => h.2 t (by simp [ht]), fun t ht => h.2 t (by simp [ht])⟩
    · intro h
      refine ⟨dvd_zero _, fun t ht => ?_⟩
      rcases List.mem_append.1 ht with ht | ht
      · exact h.1 t ht
      · exact h.2 t ht
  have hne : intGcd F G ≠ 0 := by
    intro h0
    obtain ⟨t, ht⟩ := List.exists_mem_of_ne_nil _ F0
    have := ((key 0).1 (by rw [h0])).1 t ht
    exact hF.canon.2 t ht (zero_dvd_iff.1 this)
  have e0 : expo Mono.one = 0 := rfl
  have hv : val [(Mono.one, intGcd F G)] = monomial 0 (intGcd F G) := by rw [val_single, e0]
  have self := (key (intGcd F G)).1 dvd_rfl
  refine ⟨.single ⟨.nil, by simp [Mono.one], rfl⟩ hne, ?_, ?_, ?_⟩
  · rw [hv, monomial_dvd_list ho hF]
    exact fun t ht => ⟨Finsupp.le_def.2 fun v => Nat.zero_le _, self.1 t ht⟩
  · rw [hv, monomial_dvd_list ho hG]
    exact fun t ht => ⟨Finsupp.le_def.2 fun v => Nat.zero_le _, self.2 t ht⟩
  · intro d d1 d2
    have hF0 : val F ≠ 0 := fun h => F0 ((hF.val_eq_zero M).1 h)
    have hG0 : val G ≠ 0 := fun h => G0 ((hG.val_eq_zero M).1 h)
    have hd : d.vars = ∅ := by
      rcases h with h | h
      · exact Finset.subset_empty.1 (h ▸ vars_of_dvd d1 hF0)
      · exact Finset.subset_empty.1 (h ▸ vars_of_dvd d2 hG0)
    obtain ⟨a, ha⟩ : ∃ a : ℤ, d = monomial 0 a := by
      refine ⟨coeff 0 d, ?_⟩
      rw [vars_eq_empty_iff_eq_C] at hd
      exact hd
    subst ha
    rw [monomial_dvd_list ho hF] at d1
    rw [monomial_dvd_list ho hG] at d2
    rw [hv]
    exact monomial_dvd_monomial.2 ⟨.inr le_rfl, (key a).2 ⟨fun t ht => (d1 t ht).2, fun t ht => (d2 t ht).2⟩⟩

/-! ## Chinese remaindering -/

section
variable {p : ℕ} [hp : Fact p.Prime]

theorem liftFirst_spec {f : PV Mono (ZMod p)} (hf : LP vc f) : LP vc (liftFirst p f) ∧ (liftFirst p f).map Prod.fst = f.map Prod.fst ∧ ∀ t ∈ liftFirst p f, 2 * |t.2| ≤ p := by
  have hpp := hp.out.pos
  have c : ∀ x : ZMod p, x ≠ 0 → ∀ r, r = (if Int.tmod (x.val : ℤ) p > Int.tdiv (p : ℤ) 2 then Int.tmod (x.val : ℤ) p - p else Int.tmod (x.val : ℤ) p) → r ≠ 0 ∧ 2 * |r| ≤ p := by
    intro x hx r hr
    have h1 : x.val < p := ZMod.val_lt x
    have h2 : x.val ≠ 0 := fun h => hx ((ZMod.val_eq_zero x).1 h)
    have h3 : Int.tmod (x.val : ℤ) p = x.val := Int.tmod_eq_of_lt (by omega) (by omega)
    have h4 : Int.tdiv (p : ℤ) 2 = (p : ℤ) / 2 := Int.tdiv_eq_ediv_of_nonneg (by omega)
    rw [h3] at hr
    rw [hr]
    rw [h4]
    split
    · rw [abs_of_neg (by omega)]; omega
    · rw [abs_of_nonneg (by omega)]; omega
  refine ⟨⟨fun t ht => ?_, ?_, fun t ht => ?_⟩, ?_, fun t ht => ?_⟩
  · obtain ⟨u, hu, rfl⟩ := List.mem_map.1 ht; exact hf.monos u hu
  · unfold liftFirst
    rw [List.pairwise_map]; exact hf.canon.1
  · obtain ⟨u, hu, rfl⟩ := List.mem_map.1 ht
    exact (c u.2 (hf.canon.2 u hu) _ rfl).1
  · simp [liftFirst]
  · obtain ⟨u, hu, rfl⟩ := List.mem_map.1 ht
    exact (c u.2 (hf.canon.2 u hu) _ rfl).2

theorem mem_crtMerge (inv PP : ℤ) (l : PV Mono ℤ) (m : PV Mono (ZMod p)) : ∀ t ∈ crtMerge vc p inv PP l m,
    (∃ a ∈ l, a.1 = t.1 ∧ PP ∣ t.2 - a.2) ∨ ∃ b ∈ m, b.1 = t.1 ∧ t.2 = (b.2.val : ℤ) * inv * PP := by
  induction l, m using crtMerge.induct vc p with
  | case1 => intro t ht; rw [crtMerge] at ht; simp at ht
  | case2 a l ih =>
    intro t ht
    rw [crtMerge, List.mem_cons] at ht
    rcases ht with rfl | ht
    · exact .inl ⟨a, by simp, rfl, ⟨-(a.2 * inv), by ring⟩⟩
    · rcases ih t ht with ⟨b, hb, h⟩ | h
      · exact .inl ⟨b, by simp [hb], h⟩
      · exact .inr h
  | case3 b m ih =>
    intro t ht
    rw [crtMerge, List.mem_cons] at ht
    rcases ht with rfl | ht
    · exact .inr ⟨b, by simp, rfl, rfl⟩
    · rcases ih t ht with h | ⟨c, hc, h⟩
      · exact .inl h
      · exact .inr ⟨c, by simp [hc], h⟩
  | case4 a l b m hc ih =>
    intro t ht
    rw [crtMerge, if_pos hc, List.mem_cons] at ht
    rcases ht with rfl | ht
    · exact .inl ⟨a, by simp, rfl, ⟨-(a.2 * inv), by ring⟩⟩
    · rcases ih t ht with ⟨b', hb, h⟩ | h
      · exact .inl ⟨b', by simp [hb], h⟩
      · exact .inr h
  | case5 a l b m hc hc2 ih =>
    intro t ht
    rw [crtMerge, if_neg hc, if_pos hc2, List.mem_cons] at ht
    rcases ht with rfl | ht
    · exact .inl ⟨a, by simp, hc2, ⟨((b.2.val : ℤ) - a.2) * inv, by ring⟩⟩
    · rcases ih t ht with ⟨b', hb, h⟩ | ⟨c, hc, h⟩
      · exact .inl ⟨b', by simp [hb], h⟩
      · exact .inr ⟨c, by simp [hc], h⟩
  | case6 a l b m hc hc2 ih =>
    intro t ht
    rw [crtMerge, if_neg hc, if_neg hc2, List.mem_cons] at ht
    rcases ht with rfl | ht
    · exact .inr ⟨b, by simp, rfl, rfl⟩
    · rcases ih t ht with h | ⟨c, hc, h⟩
      · exact .inl h
      · exact .inr ⟨c, by simp [hc], h⟩

theorem crtMerge_mem (inv PP : ℤ) (l : PV Mono ℤ) (m : PV Mono (ZMod p)) : ∀ a ∈ l, ∃ t ∈ crtMerge vc p inv PP l m, t.1 = a.1 := by
  induction l, m using crtMerge.induct vc p with
  | case1 => intro a ha; simp at ha
  | case2 a l ih =>
    intro a' ha
    rw [crtMerge]
    rcases List.mem_cons.1 ha with rfl | ha
    · exact ⟨_, List.mem_cons_self, rfl⟩
    · obtain ⟨e, h1, h2⟩ := ih a' ha; exact ⟨e, by simp [h1], h2⟩
  | case3 b m ih => intro a ha; simp at ha
  | case4 a l b m hc ih =>
    intro a' ha
    rw [crtMerge, if_pos hc]
    rcases List.mem_cons.1 ha with rfl | ha
    · exact ⟨_, List.mem_cons_self, rfl⟩
    · obtain ⟨e, h1, h2⟩ := ih a' ha; exact ⟨e, by simp [h1], h2⟩
  | case5 a l b m hc hc2 ih =>
    intro a' ha
    rw [crtMerge, if_neg hc, if_pos hc2]
    rcases List.mem_cons.1 ha with rfl | ha
    · exact ⟨_, List.mem_cons_self, hc2.symm⟩
    · obtain ⟨e, h1, h2⟩ := ih a' ha; exact ⟨e, by simp [h1], h2⟩
  | case6 a l b m hc hc2 ih =>
    intro a' ha
    rw [crtMerge, if_neg hc, if_neg hc2]
    obtain ⟨e, h1, h2⟩ := ih a' ha; exact ⟨e, by simp [h1], h2⟩

theorem crtMerge_sorted (M : MonoOrd vc (lexGt vc)) (inv PP : ℤ) (l : PV Mono ℤ) (m : PV Mono (ZMod p)) :
    (∀ e ∈ l, Valid vc e.1) → (∀ e ∈ m, Valid vc e.1) → (l.Pairwise fun a b => lexGt vc a.1 b.1 = true) → (m.Pairwise fun a b => lexGt vc a.1 b.1 = true) →
    (crtMerge vc p inv PP l m).Pairwise fun a b => lexGt vc a.1 b.1 = true := by
  have keys : ∀ (l : PV Mono ℤ) (m : PV Mono (ZMod p)) (x : Mono), (∀ e ∈ l, lexGt vc x e.1 = true) → (∀ e ∈ m, lexGt vc x e.1 = true) →
      ∀ e ∈ crtMerge vc p inv PP l m, lexGt vc x e.1 = true := by
    intro l m x h1 h2 e he
    rcases mem_crtMerge inv PP l m e he with ⟨a, ha, e1, _⟩ | ⟨b, hb, e1, _⟩
    · rw [← e1]; exact h1 a ha
    · rw [← e1]; exact h2 b hb
  induction l, m using crtMerge.induct vc p with
  | case1 => intros; rw [crtMerge]; exact .nil
  | case2 a l ih =>
    intro v1 v2 s1 s2
    rw [crtMerge]
    rw [List.pairwise_cons] at s1
    exact List.pairwise_cons.2 ⟨keys _ _ _ s1.1 (by simp), ih (fun e he => v1 e (by simp [he])) v2 s1.2 s2⟩
  | case3 b m ih =>
    intro v1 v2 s1 s2
    rw [crtMerge]
    rw [List.pairwise_cons] at s2
    exact List.pairwise_cons.2 ⟨keys _ _ _ (by simp) s2.1, ih v1 (fun e he => v2 e (by simp [he])) s1 s2.2⟩
  | case4 a l b m hc ih =>
    intro v1 v2 s1 s2
    rw [crtMerge, if_pos hc]
    have s2' := List.pairwise_cons.1 s2
    have s1' := List.pairwise_cons.1 s1
    refine List.pairwise_cons.2 ⟨keys _ _ _ s1'.1 (fun e he => ?_), ih (fun e he => v1 e (by simp [he])) v2 s1'.2 s2⟩
    rcases List.mem_cons.1 he with rfl | he
    · exact hc
    · exact M.lawful.trans _ _ _ (v1 a (by simp)) (v2 b (by simp)) (v2 e (by simp [he])) hc (s2'.1 e he)
  | case5 a l b m hc hc2 ih =>
    intro v1 v2 s1 s2
    rw [crtMerge, if_neg hc, if_pos hc2]
    have s2' := List.pairwise_cons.1 s2
    have s1' := List.pairwise_cons.1 s1
    exact List.pairwise_cons.2 ⟨keys _ _ _ (fun e he => by rw [← hc2]; exact s1'.1 e he) s2'.1, ih (fun e he => v1 e (by simp [he])) (fun e he => v2 e (by simp [he])) s1'.2 s2'.2⟩
  | case6 a l b m hc hc2 ih =>
    intro v1 v2 s1 s2
    rw [crtMerge, if_neg hc, if_neg hc2]
    have s2' := List.pairwise_cons.1 s2
    have s1' := List.pairwise_cons.1 s1
    have hab : lexGt vc b.1 a.1 = true := by
      rcases M.lawful.total _ _ (v2 b (by simp)) (v1 a (by simp)) (fun e => hc2 e.symm) with h | h
      · exact h
      · exact absurd h hc
    refine List.pairwise_cons.2 ⟨keys _ _ _ (fun e he => ?_) s2'.1, ih v1 (fun e he => v2 e (by simp [he])) s1 s2'.2⟩
    rcases List.mem_cons.1 he with rfl | he
    · exact hab
    · exact M.lawful.trans _ _ _ (v2 b (by simp)) (v1 a (by simp)) (v1 e (by simp [he])) hab (s1'.1 e he)

/-- the new accumulated image stays in normal form -/
theorem crtStep_spec (M : MonoOrd vc (lexGt vc)) {PP : ℤ} {l : PV Mono ℤ} {m : PV Mono (ZMod p)} (hl : LP vc l) (hm : LP vc m) (hPP : 0 < PP) (hL : ∀ t ∈ l, ¬ PP ∣ t.2)
    (hcop : ¬ (p : ℤ) ∣ PP) :
    LP vc (crtStep vc p PP l m) ∧ (∀ t ∈ crtStep vc p PP l m, (∃ a ∈ l, a.1 = t.1) ∨ ∃ b ∈ m, b.1 = t.1) ∧ (∀ a ∈ l, ∃ t ∈ crtStep vc p PP l m, t.1 = a.1) ∧
      (∀ t ∈ crtStep vc p PP l m, ¬ PP * p ∣ t.2) ∧ ∀ t ∈ crtStep vc p PP l m, 2 * |t.2| ≤ PP * p := by
  obtain ⟨inv, hinv⟩ : ∃ inv : ℤ, inv = (((PP : ZMod p)⁻¹).val : ℤ) := ⟨_, rfl⟩
  have hP0 : (PP : ZMod p) ≠ 0 := by rwa [Ne, ZMod.intCast_zmod_eq_zero_iff_dvd]
  have hinv1 : (inv : ZMod p) * (PP : ZMod p) = 1 := by rw [hinv]; simp [hP0]
  have hp0 : (0 : ℤ) < p := by exact_mod_cast hp.out.pos
  have hMp : 0 < PP * p := mul_pos hPP hp0
  have e : crtStep vc p PP l m = (crtMerge vc p inv PP l m).map fun t => (t.1, Upoly.symRed (PP * p) t.2) := by rw [crtStep, hinv]
  have mem := mem_crtMerge (vc := vc) inv PP l m
  have nz : ∀ t ∈ crtMerge vc p inv PP l m, Upoly.symRed (PP * p) t.2 ≠ 0 := by
    intro t ht h0
    obtain ⟨s1, s2⟩ := Upoly.symRed_spec hMp t.2
    rw [h0, zero_sub, dvd_neg] at s1
    rcases mem t ht with ⟨a, ha, _, h⟩ | ⟨b, hb, _, h⟩
    · have h1 : PP ∣ a.2 := by
        have := dvd_sub ((dvd_mul_right PP (p : ℤ)).trans s1) h
        rwa [sub_sub_cancel] at this
      exact hL a ha h1
    · have h1 : ((t.2 : ℤ) : ZMod p) = 0 := by
        rw [ZMod.intCast_zmod_eq_zero_iff_dvd]; exact (dvd_mul_left (p : ℤ) PP).trans s1
      rw [h] at h1
      push_cast at h1
      rw [mul_assoc, hinv1, mul_one, ZMod.natCast_val, ZMod.cast_id', id] at h1
      exact hm.canon.2 b hb h1
  refine ⟨⟨fun t ht => ?_, ?_, fun t ht => ?_⟩, fun t ht => ?_, fun a ha => ?_, fun t ht => ?_, fun t ht => ?_⟩
  · rw [e] at ht
    obtain ⟨u, hu, rfl⟩ := List.mem_map.1 ht
    rcases mem u hu with ⟨a, ha, h, _⟩ | ⟨b, hb, h, _⟩
    · show Valid vc u.1
      rw [← h]; exact hl.monos a ha
    · show Valid vc u.1
      rw [← h]; exact hm.monos b hb
  · rw [e, List.pairwise_map]
    exact crtMerge_sorted M inv PP l m hl.monos hm.monos hl.canon.1 hm.canon.1
  · rw [e] at ht
    obtain ⟨u, hu, rfl⟩ := List.mem_map.1 ht
    exact nz u hu
  · rw [e] at ht
    obtain ⟨u, hu, rfl⟩ := List.mem_map.1 ht
    rcases mem u hu with ⟨a, ha, h, _⟩ | ⟨b, hb, h, _⟩
    · exact .inl ⟨a, ha, h⟩
    · exact .inr ⟨b, hb, h⟩
  · obtain ⟨t, ht, h⟩ := crtMerge_mem (vc := vc) inv PP l m a ha
    rw [e]
    exact ⟨_, List.mem_map.2 ⟨t, ht, rfl⟩, h⟩
  · rw [e] at ht
    obtain ⟨u, hu, rfl⟩ := List.mem_map.1 ht
    have := (Upoly.symRed_spec hMp u.2).2
    intro (hd : PP * p ∣ Upoly.symRed (PP * p) u.2)
    have h1 := Int.le_of_dvd (abs_pos.2 (nz u hu)) ((dvd_abs _ _).2 hd)
    omega
  · rw [e] at ht
    obtain ⟨u, hu, rfl⟩ := List.mem_map.1 ht
    exact (Upoly.symRed_spec hMp u.2).2

end

end Mgcd
end CLPoly
