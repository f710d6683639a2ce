import Verif.Charset.RegChain

/-! # `wrsd`: splitting a regular chain by a polynomial -/

namespace CLPoly
namespace Charset
open Mono MvPolynomial Mgcd

variable {K : Type*} [Field K] {ord : List Var}

/-! ## the regular subresultants at a point -/

/-- the principal subresultant coefficient of index `i` at the point `a` -/
noncomputable def psc (a : Var → K) (x : Var) (t f : MvPolynomial Var ℤ) (i : ℕ) : K :=
  (Res.Sub ((toU x t).map (ev a)) ((toU x f).map (ev a)) (t.degreeOf x) (f.degreeOf x) i).coeff i

/-- `t` and `f` in the variable `x` with `deg f < deg t`, and the chain of their subresultants -/
structure SubCtx (ord : List Var) (j : ℕ) (t f : PV Mono ℤ) (L : List (PV Mono ℤ)) : Prop where
  nd : ord.Nodup
  hj : j < ord.length
  ht : LP (varCustom ord) t
  hf : LP (varCustom ord) f
  vt : (val t).vars ⊆ Lo ord (j + 1)
  vf : (val f).vars ⊆ Lo ord (j + 1)
  hl : 1 ≤ (val f).degreeOf (lv ord j)
  hlm : (val f).degreeOf (lv ord j) < (val t).degreeOf (lv ord j)
  out : SubOut (varCustom ord) (lv ord j) t f ((val t).degreeOf (lv ord j)) ((val f).degreeOf (lv ord j)) ((val t).degreeOf (lv ord j)) L

namespace SubCtx
variable {j : ℕ} {t f : PV Mono ℤ} {L : List (PV Mono ℤ)}

/-- the entries up to the degree of `f` are the subresultants -/
theorem low (h : SubCtx ord j t f L) {d : ℕ} (hd : d ≤ (val f).degreeOf (lv ord j)) :
    LP (varCustom ord) (L.getD d []) ∧ toU (lv ord j) (val (L.getD d [])) =
      Res.Sub (toU (lv ord j) (val t)) (toU (lv ord j) (val f)) ((val t).degreeOf (lv ord j)) ((val f).degreeOf (lv ord j)) d := by
  have h1 := h.hlm
  by_cases hlt : d < (val t).degreeOf (lv ord j) - 1
  · exact ⟨h.out.ok d hd hlt, h.out.eq d hd hlt⟩
  · have e1 : d = (val t).degreeOf (lv ord j) - 1 := by omega
    have e2 : d = (val f).degreeOf (lv ord j) := by omega
    have e3 : (val t).degreeOf (lv ord j) = (val f).degreeOf (lv ord j) + 1 := by omega
    rw [e1, h.out.top', e3, Nat.add_sub_cancel, Res.Sub_last]
    exact ⟨h.hf, rfl⟩

theorem low_vars (h : SubCtx ord j t f L) {d : ℕ} (hd : d ≤ (val f).degreeOf (lv ord j)) : (val (L.getD d [])).vars ⊆ Lo ord (j + 1) := by
  obtain ⟨-, e⟩ := h.low hd
  obtain ⟨s, h1, h2, -⟩ := Res.exists_sub (lv ord j) (val t) (val f) ((val t).degreeOf (lv ord j)) ((val f).degreeOf (lv ord j)) d
  rw [← h1] at e
  rw [toU_injective _ e]
  intro w hw
  by_cases hwx : w = lv ord j
  · rw [hwx]; exact mem_Lo.2 ⟨j, by omega, rfl⟩
  by_contra hn
  have h3 := h2 w hwx
  rw [degreeOf_zero_iff.2 fun hm => hn (h.vt hm), degreeOf_zero_iff.2 fun hm => hn (h.vf hm), mul_zero, mul_zero, add_zero, Nat.le_zero, degreeOf_zero_iff] at h3
  exact h3 hw

theorem low_map (h : SubCtx ord j t f L) {d : ℕ} (hd : d ≤ (val f).degreeOf (lv ord j)) (a : Var → K) : (toU (lv ord j) (val (L.getD d []))).map (ev a) =
    Res.Sub ((toU (lv ord j) (val t)).map (ev a)) ((toU (lv ord j) (val f)).map (ev a)) ((val t).degreeOf (lv ord j)) ((val f).degreeOf (lv ord j)) d := by
  rw [(h.low hd).2, Res.Sub_map]

theorem low_deg (h : SubCtx ord j t f L) {d : ℕ} (hd : d ≤ (val f).degreeOf (lv ord j)) : (val (L.getD d [])).degreeOf (lv ord j) ≤ d := by
  have h1 := h.hlm
  rw [← natDegree_toU, (h.low hd).2]
  exact Res.Sub_natDegree (by rw [natDegree_toU]) (by rw [natDegree_toU]) (by omega) hd (by omega)

/-- the principal coefficient of an irregular subresultant vanishes -/
theorem irr (h : SubCtx ord j t f L) {d : ℕ} (hd : d ≤ (val f).degreeOf (lv ord j)) (hne : (val (L.getD d [])).degreeOf (lv ord j) ≠ d) (a : Var → K) : psc a (lv ord j) (val t) (val f) d = 0 := by
  unfold psc
  rw [← h.low_map hd a, Polynomial.coeff_map, Polynomial.coeff_eq_zero_of_natDegree_lt, map_zero]
  rw [natDegree_toU]
  exact lt_of_le_of_ne (h.low_deg hd) hne

/-- the principal coefficient of a regular subresultant is its leading coefficient -/
theorem reg (h : SubCtx ord j t f L) {d : ℕ} (hd : d ≤ (val f).degreeOf (lv ord j)) (he : (val (L.getD d [])).degreeOf (lv ord j) = d) (a : Var → K) :
    psc a (lv ord j) (val t) (val f) d = aeval a (toU (lv ord j) (val (L.getD d []))).leadingCoeff := by
  unfold psc
  rw [← h.low_map hd a, Polynomial.coeff_map, Polynomial.leadingCoeff, natDegree_toU, he]
  rfl

/-- entry 0 -/
theorem zero (h : SubCtx ord j t f L) : LP (varCustom ord) (L.getD 0 []) ∧ (val (L.getD 0 [])).degreeOf (lv ord j) = 0 ∧ (val (L.getD 0 [])).vars ⊆ Lo ord j ∧
    ∀ a : Var → K, psc a (lv ord j) (val t) (val f) 0 = aeval a (val (L.getD 0 [])) := by
  have h0 : (val (L.getD 0 [])).degreeOf (lv ord j) = 0 := Nat.le_zero.1 (h.low_deg (Nat.zero_le _))
  have hv := degreeOf_zero_iff.1 h0
  refine ⟨(h.low (Nat.zero_le _)).1, h0, Lo_free (h.low_vars (Nat.zero_le _)) hv, fun a => ?_⟩
  rw [h.reg (Nat.zero_le _) h0 a, toU_free hv, Polynomial.leadingCoeff_C]

/-- a regular index above the degree of `f` is that of `t` -/
theorem high (h : SubCtx ord j t f L) {d : ℕ} (hd : (val f).degreeOf (lv ord j) < d) (hm : d ≤ (val t).degreeOf (lv ord j)) (he : (val (L.getD d [])).degreeOf (lv ord j) = d) :
    d = (val t).degreeOf (lv ord j) := by
  by_contra hne
  by_cases h1 : d < (val t).degreeOf (lv ord j) - 1
  · rw [h.out.gap d hd h1, val_nil, degreeOf_zero] at he; omega
  · rw [show d = (val t).degreeOf (lv ord j) - 1 by omega, h.out.top'] at he
    omega

theorem entry (h : SubCtx ord j t f L) {d : ℕ} (hm : d ≤ (val t).degreeOf (lv ord j)) (he : (val (L.getD d [])).degreeOf (lv ord j) = d) :
    LP (varCustom ord) (L.getD d []) ∧ (val (L.getD d [])).vars ⊆ Lo ord (j + 1) := by
  by_cases hd : d ≤ (val f).degreeOf (lv ord j)
  · exact ⟨(h.low hd).1, h.low_vars hd⟩
  · rw [h.high (by omega) hm he, h.out.top]
    exact ⟨h.ht, h.vt⟩

/-- the first regular subresultant whose principal coefficient does not vanish at `a` is the greatest common divisor there -/
theorem gcd_at (h : SubCtx ord j t f L) {d : ℕ} (hm : d ≤ (val t).degreeOf (lv ord j)) (he : (val (L.getD d [])).degreeOf (lv ord j) = d) {a : Var → K}
    (ht : aeval a (toU (lv ord j) (val t)).leadingCoeff ≠ 0) (hz : ∀ i < d, i ≤ (val f).degreeOf (lv ord j) → psc a (lv ord j) (val t) (val f) i = 0)
    (hs : aeval a (toU (lv ord j) (val (L.getD d []))).leadingCoeff ≠ 0) :
    (toU (lv ord j) (val (L.getD d []))).map (ev a) ∣ (toU (lv ord j) (val t)).map (ev a) ∧
      (aeval a (val (L.getD d [])) = 0 ↔ aeval a (val t) = 0 ∧ aeval a (val f) = 0) := by
  have h1 := h.hlm
  have hQ : ((toU (lv ord j) (val f)).map (ev a)).natDegree ≤ (val f).degreeOf (lv ord j) := by
    rw [← natDegree_toU]; exact Polynomial.natDegree_map_le
  by_cases hd : d ≤ (val f).degreeOf (lv ord j)
  · obtain ⟨g1, -, g3⟩ := Res.sub_root (ev_natDegree ht) (ev_ne ht) hQ hd hm (by omega) (fun i hi => hz i hi (by omega)) (by
      have := h.reg hd he a
      unfold psc at this
      rw [this]; exact hs)
    rw [← h.low_map hd a] at g1 g3
    refine ⟨g1, ?_⟩
    have := g3 (a (lv ord j))
    rwa [ev_eval, ev_eval, ev_eval] at this
  · have hQ0 := Res.sub_all_zero (ev_natDegree ht) (ev_ne ht) hQ h1 fun i hi => hz i (by omega) hi
    rw [h.high (by omega) hm he, h.out.top]
    refine ⟨dvd_rfl, ?_⟩
    have : aeval a (val f) = 0 := by rw [← ev_eval a (lv ord j), hQ0, Polynomial.eval_zero]
    simp [this]

end SubCtx

/-! ## the specification -/

/-- `H` and `G` split the zeros of `T` into those with `f = 0` and those with `f ≠ 0` -/
structure WOut (K : Type*) [Field K] (ord : List Var) (T : List (PV Mono ℤ)) (f : PV Mono ℤ) (r : List (List (PV Mono ℤ)) × List (List (PV Mono ℤ))) : Prop where
  h : ∀ h ∈ r.1, RC K ord h ∧ h.length = T.length
  g : ∀ g ∈ r.2, RC K ord g ∧ g.length = T.length
  hz : ∀ a : Var → K, (∃ h ∈ r.1, Zr h a) ↔ Zr T a ∧ aeval a (val f) = 0
  gz : ∀ a : Var → K, (∃ g ∈ r.2, Zr g a) ↔ Zr T a ∧ aeval a (val f) ≠ 0

/-- chains of length `n` whose zeros are those in `Z` -/
structure Uni (K : Type*) [Field K] (ord : List Var) (n : ℕ) (Z : (Var → K) → Prop) (H : List (List (PV Mono ℤ))) : Prop where
  rc : ∀ h ∈ H, RC K ord h ∧ h.length = n
  zr : ∀ a : Var → K, (∃ h ∈ H, Zr h a) ↔ Z a

theorem wout_iff {T : List (PV Mono ℤ)} {f : PV Mono ℤ} {r : List (List (PV Mono ℤ)) × List (List (PV Mono ℤ))} :
    WOut K ord T f r ↔ Uni K ord T.length (fun a => Zr T a ∧ aeval a (val f) = 0) r.1 ∧ Uni K ord T.length (fun a => Zr T a ∧ aeval a (val f) ≠ 0) r.2 :=
  ⟨fun h => ⟨⟨h.h, h.hz⟩, ⟨h.g, h.gz⟩⟩, fun ⟨h, g⟩ => ⟨h.rc, g.rc, h.zr, g.zr⟩⟩

namespace Uni
variable {n : ℕ} {Z Z' : (Var → K) → Prop} {H H' : List (List (PV Mono ℤ))}

theorem nil (h : ∀ a, ¬ Z a) : Uni K ord n Z [] := ⟨by simp, fun a => by simp [h a]⟩
theorem single {T : List (PV Mono ℤ)} (h : RC K ord T) (hl : T.length = n) (hz : ∀ a, Zr T a ↔ Z a) : Uni K ord n Z [T] := ⟨by simpa using ⟨h, hl⟩, fun a => by simp [hz a]⟩
theorem congr (h : Uni K ord n Z H) (hz : ∀ a, Z a ↔ Z' a) : Uni K ord n Z' H := ⟨h.rc, fun a => (h.zr a).trans (hz a)⟩
theorem append (h : Uni K ord n Z H) (h' : Uni K ord n Z' H') : Uni K ord n (fun a => Z a ∨ Z' a) (H ++ H') := by
  refine ⟨fun g hg => ?_, fun a => ?_⟩
  · rcases List.mem_append.1 hg with hg | hg
    · exact h.rc g hg
    · exact h'.rc g hg
  · rw [← h.zr, ← h'.zr]
    simp only [List.mem_append]
    constructor
    · rintro ⟨g, hg | hg, hz⟩
      · exact .inl ⟨g, hg, hz⟩
      · exact .inr ⟨g, hg, hz⟩
    · rintro (⟨g, hg, hz⟩ | ⟨g, hg, hz⟩)
      · exact ⟨g, .inl hg, hz⟩
      · exact ⟨g, .inr hg, hz⟩

/-- the chains are extended by the same elements -/
theorem ext {A B : List (PV Mono ℤ)} (hAB : RC K ord (A ++ B)) (hn : n = A.length) (hZ : ∀ a, Z a → Zr A a) (h : Uni K ord n Z H) :
    Uni K ord (A ++ B).length (fun a => Z a ∧ Zr B a) (H.map (· ++ B)) := by
  refine ⟨fun g hg => ?_, fun a => ?_⟩
  · obtain ⟨h', hm, rfl⟩ := List.mem_map.1 hg
    obtain ⟨h1, h2⟩ := h.rc h' hm
    exact ⟨h1.replace hAB (by omega) fun a ha => hZ a ((h.zr a).1 ⟨h', hm, ha⟩), by simp; omega⟩
  · rw [← h.zr]
    constructor
    · rintro ⟨g, hg, hz⟩
      obtain ⟨h', hm, rfl⟩ := List.mem_map.1 hg
      rw [Zr.append] at hz
      exact ⟨⟨h', hm, hz.1⟩, hz.2⟩
    · rintro ⟨⟨h', hm, hz⟩, hB⟩
      exact ⟨h' ++ B, List.mem_map.2 ⟨h', hm, rfl⟩, Zr.append.2 ⟨hz, hB⟩⟩

end Uni

/-- collecting the results for several chains -/
theorem Coll.uni {n n' : ℕ} {l : List (List (PV Mono ℤ))} {r : List (List (PV Mono ℤ)) × List (List (PV Mono ℤ))} {P1 P2 : (Var → K) → Prop} {Q : List (PV Mono ℤ) → List (List (PV Mono ℤ)) × List (List (PV Mono ℤ)) → Prop}
    (h : Coll Q l r) {Z : (Var → K) → Prop} (hl : Uni K ord n Z l)
    (hQ : ∀ g ∈ l, ∀ s, Q g s → Uni K ord n' (fun a => Zr g a ∧ P1 a) s.1 ∧ Uni K ord n' (fun a => Zr g a ∧ P2 a) s.2) :
    Uni K ord n' (fun a => Z a ∧ P1 a) r.1 ∧ Uni K ord n' (fun a => Z a ∧ P2 a) r.2 := by
  obtain ⟨h1, h2, h3⟩ := h
  refine ⟨⟨fun x hx => ?_, fun a => ?_⟩, ⟨fun x hx => ?_, fun a => ?_⟩⟩
  · obtain ⟨g, hg, s, hs, hm⟩ := h2 x hx
    exact (hQ g hg s hs).1.rc x hm
  · rw [← hl.zr]
    constructor
    · rintro ⟨x, hx, hz⟩
      obtain ⟨g, hg, s, hs, hm⟩ := h2 x hx
      have := ((hQ g hg s hs).1.zr a).1 ⟨x, hm, hz⟩
      exact ⟨⟨g, hg, this.1⟩, this.2⟩
    · rintro ⟨⟨g, hg, hz⟩, hp⟩
      obtain ⟨s, hs, k1, -⟩ := h1 g hg
      obtain ⟨x, hx, hxz⟩ := ((hQ g hg s hs).1.zr a).2 ⟨hz, hp⟩
      exact ⟨x, k1 x hx, hxz⟩
  · obtain ⟨g, hg, s, hs, hm⟩ := h3 x hx
    exact (hQ g hg s hs).2.rc x hm
  · rw [← hl.zr]
    constructor
    · rintro ⟨x, hx, hz⟩
      obtain ⟨g, hg, s, hs, hm⟩ := h3 x hx
      have := ((hQ g hg s hs).2.zr a).1 ⟨x, hm, hz⟩
      exact ⟨⟨g, hg, this.1⟩, this.2⟩
    · rintro ⟨⟨g, hg, hz⟩, hp⟩
      obtain ⟨s, hs, -, k2⟩ := h1 g hg
      obtain ⟨x, hx, hxz⟩ := ((hQ g hg s hs).2.zr a).2 ⟨hz, hp⟩
      exact ⟨x, k2 x hx, hxz⟩

/-! ## the loop -/

section loop
variable {j : ℕ} {A : List (PV Mono ℤ)} {t f : PV Mono ℤ} {L : List (PV Mono ℤ)}

/-- adding a regular subresultant to a chain on which its leading coefficient does not vanish -/
theorem add_s {g : List (PV Mono ℤ)} {s : PV Mono ℤ} {j : ℕ} (hj : j < ord.length) (hg : RC K ord g) (hl : g.length = j) (hs : LP (varCustom ord) s) (hv : (val s).vars ⊆ Lo ord (j + 1))
    (hd : 0 < (val s).degreeOf (lv ord j)) (hlc : ∀ a : Var → K, Zr g a → aeval a (toU (lv ord j) (val s)).leadingCoeff ≠ 0) : RC K ord (g ++ [s]) := by
  refine RC.snoc.2 ⟨hg, ⟨by omega, hs, by rw [hl]; exact hv, ?_⟩, fun a ha => by rw [hl]; exact hlc a ha⟩
  rw [hl]
  by_contra hc
  rw [degreeOf_zero_iff.2 hc] at hd
  omega

/-- one regular subresultant on a chain where it is the greatest common divisor -/
theorem gcd_pquo (h : SubCtx ord j t f L) {d : ℕ} (hd1 : 1 ≤ d) (hm : d ≤ (val t).degreeOf (lv ord j)) (he : (val (L.getD d [])).degreeOf (lv ord j) = d) {g : List (PV Mono ℤ)}
    (hg : RC K ord g) (hl : g.length = j) (ht : ∀ a : Var → K, Zr g a → aeval a (toU (lv ord j) (val t)).leadingCoeff ≠ 0)
    (hz : ∀ a : Var → K, Zr g a → ∀ i < d, i ≤ (val f).degreeOf (lv ord j) → psc a (lv ord j) (val t) (val f) i = 0)
    (hs : ∀ a : Var → K, Zr g a → aeval a (toU (lv ord j) (val (L.getD d []))).leadingCoeff ≠ 0) :
    Uni K ord (j + 1) (fun a => Zr g a ∧ (aeval a (val t) = 0 ∧ aeval a (val f) = 0)) [g ++ [L.getD d []]] ∧
    ∃ r, pquoC (varCustom ord) true (lv ord j) t (L.getD d []) = some r ∧ ∀ q, r = some q → LP (varCustom ord) q ∧ (val q).degreeOf (lv ord j) = (val t).degreeOf (lv ord j) - d ∧
      (0 < (val q).degreeOf (lv ord j) → RC K ord (g ++ [q]) ∧ ∀ V, WOut K ord (g ++ [q]) f V → Uni K ord (j + 1) (fun a => Zr g a ∧ (aeval a (val t) = 0 ∧ aeval a (val f) ≠ 0)) V.2) ∧
      ((val q).degreeOf (lv ord j) = 0 → Uni K ord (j + 1) (fun a => Zr g a ∧ (aeval a (val t) = 0 ∧ aeval a (val f) ≠ 0)) []) := by
  have ho := varCustom_ord ord
  obtain ⟨s1, s2⟩ := h.entry hm he
  have hgcd := fun (a : Var → K) (ha : Zr g a) => h.gcd_at hm he (ht a ha) (hz a ha) (hs a ha)
  have hrs : RC K ord (g ++ [L.getD d []]) := add_s h.hj hg hl s1 s2 (by omega) hs
  refine ⟨Uni.single hrs (by simp [hl]) fun a => ?_, ?_⟩
  · rw [Zr.append, Zr.single]
    exact and_congr_right fun ha => (hgcd a ha).2
  obtain ⟨r, e, hr⟩ := pquoC_spec ho (v := lv ord j) h.ht s1 (by intro e; rw [e, val_nil, degreeOf_zero] at he; omega)
  refine ⟨r, e, fun q hq => ?_⟩
  obtain ⟨q1, S, -, hp⟩ := hr q hq
  obtain ⟨p1, p2, p3⟩ := pquo_level (K := K) hp rfl he (by omega) hm
  have hq' := fun (a : Var → K) (ha : Zr g a) => p3 a (hs a ha) (ht a ha) (hgcd a ha).1
  refine ⟨q1, p1, fun hqd => ⟨add_s h.hj hg hl q1 (p2 _ h.vt s2) hqd fun a ha => (hq' a ha).1, fun V hV => ?_⟩, fun hq0 => Uni.nil fun a ⟨ha, hta, hfa⟩ => ?_⟩
  · obtain ⟨-, hG⟩ := wout_iff.1 hV
    rw [List.length_append, List.length_singleton, hl] at hG
    refine hG.congr fun a => ?_
    rw [Zr.append, Zr.single]
    constructor
    · rintro ⟨⟨ha, hqa⟩, hfa⟩
      exact ⟨ha, (hq' a ha).2.2 (.inl hqa), hfa⟩
    · rintro ⟨ha, hta, hfa⟩
      refine ⟨⟨ha, ((hq' a ha).2.1 hta).resolve_right fun hc => hfa ((hgcd a ha).2.1 hc).2⟩, hfa⟩
  · have h1 := (hq' a ha).1
    rw [toU_free (degreeOf_zero_iff.1 hq0), Polynomial.leadingCoeff_C] at h1
    exact hfa ((hgcd a ha).2.1 (((hq' a ha).2.1 hta).resolve_left h1)).2

theorem gcd_step (h : SubCtx ord j t f L) {w : ℕ → List (PV Mono ℤ) → PV Mono ℤ → O2 (List (List (PV Mono ℤ)) × List (List (PV Mono ℤ)))}
    (hw : ∀ g q, RC K ord (g ++ [q]) → g.length = j → (val q).degreeOf (lv ord j) < (val t).degreeOf (lv ord j) → Conv (fun k => w k (g ++ [q]) f) (WOut K ord (g ++ [q]) f))
    {d : ℕ} (hd1 : 1 ≤ d) (hm : d ≤ (val t).degreeOf (lv ord j)) (he : (val (L.getD d [])).degreeOf (lv ord j) = d) {g : List (PV Mono ℤ)} (hg : RC K ord g) (hl : g.length = j)
    (ht : ∀ a : Var → K, Zr g a → aeval a (toU (lv ord j) (val t)).leadingCoeff ≠ 0)
    (hz : ∀ a : Var → K, Zr g a → ∀ i < d, i ≤ (val f).degreeOf (lv ord j) → psc a (lv ord j) (val t) (val f) i = 0)
    (hs : ∀ a : Var → K, Zr g a → aeval a (toU (lv ord j) (val (L.getD d []))).leadingCoeff ≠ 0) :
    Conv (fun k => bind2 (pquoC (varCustom ord) true (lv ord j) t (L.getD d [])) fun q =>
        if degreeLex (varCustom ord) q (lv ord j) > 0 then bind2 (w k (g ++ [q]) f) fun V => ok2 ([g ++ [L.getD d []]], V.2) else ok2 ([g ++ [L.getD d []]], []))
      (fun U => Uni K ord (j + 1) (fun a => Zr g a ∧ (aeval a (val t) = 0 ∧ aeval a (val f) = 0)) U.1 ∧ Uni K ord (j + 1) (fun a => Zr g a ∧ (aeval a (val t) = 0 ∧ aeval a (val f) ≠ 0)) U.2) := by
  have ho := varCustom_ord ord
  obtain ⟨hU, r, e, hr⟩ := gcd_pquo h hd1 hm he hg hl ht hz hs
  refine Conv.bind (P := fun q => some q = r) ⟨0, r, fun _ _ => e, fun a e => e.symm⟩ fun q hq => ?_
  obtain ⟨q1, q2, q3, q4⟩ := hr q hq.symm
  simp only [degreeLex_spec ho q1]
  by_cases hqd : (0 : ℤ) < (val q).degreeOf (lv ord j)
  · simp only [gt_iff_lt, if_pos hqd]
    obtain ⟨k1, k2⟩ := q3 (by exact_mod_cast hqd)
    exact (hw g q k1 hl (by rw [q2]; omega)).bind fun V hV => Conv.ok ⟨hU, k2 V hV⟩
  · simp only [gt_iff_lt, if_neg hqd]
    exact Conv.ok ⟨hU, q4 (by omega)⟩

theorem wrsdLoop_conv (h : SubCtx ord j t f L) {w : ℕ → List (PV Mono ℤ) → PV Mono ℤ → O2 (List (List (PV Mono ℤ)) × List (List (PV Mono ℤ)))}
    (hw1 : ∀ A g, RC K ord A → A.length = j → LP (varCustom ord) g → (val g).vars ⊆ Lo ord j → Conv (fun k => w k A g) (WOut K ord A g))
    (hw2 : ∀ g q, RC K ord (g ++ [q]) → g.length = j → (val q).degreeOf (lv ord j) < (val t).degreeOf (lv ord j) → Conv (fun k => w k (g ++ [q]) f) (WOut K ord (g ++ [q]) f)) :
    ∀ (ds : List ℕ) (H : List (List (PV Mono ℤ))) (Z : (Var → K) → Prop), ds.Pairwise (· < ·) →
      (∀ d ∈ ds, 1 ≤ d ∧ d ≤ (val t).degreeOf (lv ord j) ∧ (val (L.getD d [])).degreeOf (lv ord j) = d) → Uni K ord j Z H →
      (∀ a, Z a → aeval a (toU (lv ord j) (val t)).leadingCoeff ≠ 0) →
      (∀ a, Z a → ∀ i ≤ (val f).degreeOf (lv ord j), i ∉ ds → psc a (lv ord j) (val t) (val f) i = 0) →
      Conv (fun k => wrsdLoop (varCustom ord) true (w k) (lv ord j) t f (ds.map fun d => L.getD d []) H)
        (fun U => Uni K ord (j + 1) (fun a => Z a ∧ (aeval a (val t) = 0 ∧ aeval a (val f) = 0)) U.1 ∧ Uni K ord (j + 1) (fun a => Z a ∧ (aeval a (val t) = 0 ∧ aeval a (val f) ≠ 0)) U.2) := by
  have ho := varCustom_ord ord
  intro ds
  induction ds with
  | nil =>
    intro H Z _ _ hH _ _
    cases H with
    | nil =>
      have hZ : ∀ a, ¬ Z a := fun a hz => by simpa using (hH.zr a).2 hz
      exact Conv.ok ⟨Uni.nil fun a hc => hZ a hc.1, Uni.nil fun a hc => hZ a hc.1⟩
    | cons h H => exact Conv.give
  | cons d ds ih =>
    intro H Z hs hds hH hlt hpsc
    cases H with
    | nil =>
      have hZ : ∀ a, ¬ Z a := fun a hz => by simpa using (hH.zr a).2 hz
      exact Conv.ok ⟨Uni.nil fun a hc => hZ a hc.1, Uni.nil fun a hc => hZ a hc.1⟩
    | cons c H =>
      simp only [List.map_cons, wrsdLoop]
      obtain ⟨hd1, hdm, hde⟩ := hds d (by simp)
      obtain ⟨s1, s2⟩ := h.entry hdm hde
      rw [List.pairwise_cons] at hs
      have hmain : IsMain (varCustom ord) (val (L.getD d [])) (lv ord j) := lo_main h.nd h.hj s2 (by
        by_contra hc; rw [degreeOf_zero_iff.2 hc] at hde; omega)
      obtain ⟨n1, n2⟩ := main_num ho s1 hmain
      obtain ⟨l1, l2, -, l4⟩ := lead_spec ho s1 n1
      rw [n2] at l4
      have l5 : (val (leadLex (L.getD d []))).vars ⊆ Lo ord j := by
        refine Lo_free (fun v hv => s2 ?_) ?_
        · rw [l4, Polynomial.leadingCoeff] at hv
          exact (toU_coeff _ _ _).vars_subset hv
        · rw [l4, Polynomial.leadingCoeff]
          exact free_coeff _ _ _
      refine (Conv.collect (Q := fun A r => WOut K ord A (leadLex (L.getD d [])) r) fun A hA => hw1 A _ (hH.rc A hA).1 (hH.rc A hA).2 l1 l5).bind fun W hW => ?_
      obtain ⟨W1, W2⟩ := hW.uni (n' := j) (P1 := fun a => aeval a (val (leadLex (L.getD d []))) = 0) (P2 := fun a => aeval a (val (leadLex (L.getD d []))) ≠ 0) hH fun A hA s hs' => by
        have := wout_iff.1 hs'
        rw [(hH.rc A hA).2] at this
        exact this
      rw [l4] at W1 W2
      have hlow : ∀ a, Z a → ∀ i < d, i ≤ (val f).degreeOf (lv ord j) → psc a (lv ord j) (val t) (val f) i = 0 := fun a ha i hi hil =>
        hpsc a ha i hil fun hm => by
          rcases List.mem_cons.1 hm with rfl | hm
          · omega
          · have := hs.1 i hm; omega
      refine (Conv.collect (Q := fun g U => Uni K ord (j + 1) (fun a => Zr g a ∧ (aeval a (val t) = 0 ∧ aeval a (val f) = 0)) U.1 ∧
        Uni K ord (j + 1) (fun a => Zr g a ∧ (aeval a (val t) = 0 ∧ aeval a (val f) ≠ 0)) U.2) fun g hg => ?_).bind fun U hU => ?_
      · have hz := fun (a : Var → K) (ha : Zr g a) => (W2.zr a).1 ⟨g, hg, ha⟩
        exact gcd_step h hw2 hd1 hdm hde (W2.rc g hg).1 (W2.rc g hg).2 (fun a ha => hlt a (hz a ha).1) (fun a ha => hlow a (hz a ha).1) (fun a ha => (hz a ha).2)
      · obtain ⟨U1, U2⟩ := hU.uni W2 fun g _ s hs => hs
        refine (ih W.1 _ hs.2 (fun e he => hds e (List.mem_cons_of_mem _ he)) W1 (fun a ha => hlt a ha.1) (fun a ha i hi hn => ?_)).bind fun V hV => Conv.ok ⟨(U1.append hV.1).congr fun a => ?_, (U2.append hV.2).congr fun a => ?_⟩
        · by_cases hid : i = d
          · rw [hid] at hi ⊢
            rw [h.reg hi hde]; exact ha.2
          · exact hpsc a ha.1 i hi (by simp [hid, hn])
        · tauto
        · tauto

end loop

/-! ## `wrsd` -/

section main
variable [CharZero K]

/-- the degree of the last element in its variable -/
noncomputable def lastDeg (ord : List Var) (T : List (PV Mono ℤ)) : ℕ := (val (T.getLastD [])).degreeOf (lv ord (T.length - 1))

theorem lastDeg_snoc {A : List (PV Mono ℤ)} {t : PV Mono ℤ} : lastDeg ord (A ++ [t]) = (val t).degreeOf (lv ord A.length) := by
  unfold lastDeg
  simp [List.getLastD_eq_getLast?]

/-- the rank of a chain is lower -/
def ChLt (ord : List Var) (T' T : List (PV Mono ℤ)) : Prop := T'.length < T.length ∨ T'.length = T.length ∧ lastDeg ord T' < lastDeg ord T

/-- indices of the regular subresultants but the first -/
def regIdx (vc : Var → Var → Bool) (x : Var) (L : List (PV Mono ℤ)) : List ℕ := (List.range' 1 (L.length - 1)).filter fun i => degreeLex vc (L.getD i []) x = i

theorem SubCtx.rs {j : ℕ} {t f : PV Mono ℤ} {L : List (PV Mono ℤ)} (h : SubCtx ord j t f L) :
    regSub (varCustom ord) (lv ord j) L = L.getD 0 [] :: (regIdx (varCustom ord) (lv ord j) L).map fun d => L.getD d [] := by
  unfold regSub regIdx
  rw [List.range_eq_range', show L.length = (L.length - 1) + 1 by rw [h.out.len]; rfl, List.range'_succ, List.filter_cons_of_pos, List.map_cons, Nat.add_sub_cancel]
  rw [decide_eq_true_iff, degreeLex_spec (varCustom_ord ord) (h.zero (K := ℚ)).1, (h.zero (K := ℚ)).2.1]

theorem SubCtx.ds {j : ℕ} {t f : PV Mono ℤ} {L : List (PV Mono ℤ)} (h : SubCtx ord j t f L) {d : ℕ} :
    d ∈ regIdx (varCustom ord) (lv ord j) L ↔ 1 ≤ d ∧ d ≤ (val t).degreeOf (lv ord j) ∧ (val (L.getD d [])).degreeOf (lv ord j) = d := by
  have ho := varCustom_ord ord
  have key : 1 ≤ d → d ≤ (val t).degreeOf (lv ord j) → degreeLex (varCustom ord) (L.getD d []) (lv ord j) = (((val (L.getD d [])).degreeOf (lv ord j) : ℕ) : ℤ) := by
    intro h1 h2
    refine degreeLex_spec ho ?_ _
    by_cases hd : d ≤ (val f).degreeOf (lv ord j)
    · exact (h.low hd).1
    by_cases h3 : d < (val t).degreeOf (lv ord j) - 1
    · rw [h.out.gap d (by omega) h3]
      exact PolyOK.nil
    by_cases h4 : d = (val t).degreeOf (lv ord j)
    · rw [h4, h.out.top]; exact h.ht
    · rw [show d = (val t).degreeOf (lv ord j) - 1 by omega, h.out.top']; exact h.hf
  unfold regIdx
  rw [List.mem_filter, List.mem_range'_1, decide_eq_true_iff, h.out.len]
  constructor
  · rintro ⟨h1, h2⟩
    rw [key (by omega) (by omega)] at h2
    exact ⟨by omega, by omega, by exact_mod_cast h2⟩
  · rintro ⟨h1, h2, h3⟩
    exact ⟨by omega, by rw [key h1 h2, h3]⟩

theorem SubCtx.sorted (vc : Var → Var → Bool) (x : Var) (L : List (PV Mono ℤ)) : (regIdx vc x L).Pairwise (· < ·) := List.Pairwise.filter _ List.pairwise_lt_range'

/-- a reduced polynomial that is not a number -/
theorem wrsd_red (hn : ord.Nodup) {T : List (PV Mono ℤ)} {f : PV Mono ℤ} (hT : RC K ord T) (hf : LP (varCustom ord) f) (hv : (val f).vars ⊆ Lo ord T.length)
    (ih : ∀ T' f', RC K ord T' → LP (varCustom ord) f' → (val f').vars ⊆ Lo ord T'.length → ChLt ord T' T → Conv (fun k => wrsd ord true k T' f') (WOut K ord T' f'))
    (hred : ∀ A c B, T = A ++ c :: B → (val f).degreeOf (lv ord A.length) < (val c).degreeOf (lv ord A.length)) (hself : redChain (varCustom ord) true T f = ok2 f) :
    Conv (fun k => wrsd ord true k T f) (WOut K ord T f) := by
  have ho := varCustom_ord ord
  refine Conv.succ ?_
  simp only [wrsd, hself]
  simp only [show ∀ F : PV Mono ℤ → O2 (List (List (PV Mono ℤ)) × List (List (PV Mono ℤ))), bind2 (ok2 f) F = F f from fun _ => rfl, ne_eq, not_true_eq_false, if_false]
  by_cases h0 : f = []
  · simp only [if_pos h0]
    refine Conv.ok (wout_iff.2 ⟨Uni.single hT rfl fun a => ?_, Uni.nil fun a h => h.2 (by rw [h0, val_nil, map_zero])⟩)
    rw [h0, val_nil, map_zero]; simp
  simp only [if_neg h0]
  have hval0 : val f ≠ 0 := fun e => h0 ((hf.val_eq_zero (lex_ord ho)).1 e)
  by_cases hnum : isNumber f = true
  · simp only [if_pos hnum]
    have hc := fun a : Var → K => const_ne a ((num_iff ho hf).1 hnum) hval0
    exact Conv.ok (wout_iff.2 ⟨Uni.nil fun a h => hc a h.2, Uni.single hT rfl fun a => by simp [hc a]⟩)
  simp only [if_neg hnum]
  rw [Bool.not_eq_true] at hnum
  obtain ⟨j, hj, ex, hvj, hmj⟩ := lo_first hn hT.1.len hf hv hnum
  have hjo : j < ord.length := lt_of_lt_of_le hj hT.1.len
  simp only [ex, custN_lv hn hjo]
  simp only [if_neg (show ¬ T.length < j + 1 by omega), Nat.add_sub_cancel]
  obtain ⟨A, t, B, rfl, rfl⟩ : ∃ A t B, T = A ++ t :: B ∧ A.length = j :=
    ⟨T.take j, T[j], T.drop (j + 1), by rw [List.cons_getElem_drop_succ, List.take_append_drop], by simp; omega⟩
  have hT' := hT
  rw [List.append_cons] at hT'
  obtain ⟨hA, ht0, htr⟩ := RC.snoc.1 hT'.pre
  have e1 : (A ++ t :: B).take (A.length + 1) = A ++ [t] := by rw [List.append_cons]; exact List.take_left' (by simp)
  have e2 : (A ++ t :: B).drop (A.length + 1) = B := by rw [List.append_cons]; exact List.drop_left' (by simp)
  have e3 : (A ++ t :: B).getD A.length [] = t := by simp
  have e4 : (A ++ t :: B).take A.length = A := List.take_left' rfl
  simp only [e1, e2, e3, e4]
  have hone : Conv (fun k => iterRes (varCustom ord) true k (A ++ [t]) f) fun r => IterOut K ord (A ++ [t]) f r ∧ (A = [] → ResOut (varCustom ord) (lv ord A.length) f t r) := by
    refine (iterRes_conv (K := K) hn hT'.pre.1 hf (by simpa using hvj)).and ?_
    by_cases hA0 : A = []
    · simp only [iterRes_snoc, (ht0.num hn).2]
      refine (resC_conv ho hf ht0.ok _).bind fun r hr => ?_
      subst hA0
      exact Conv.ok fun _ => hr
    · exact (iterRes_conv (K := K) hn hT'.pre.1 hf (by simpa using hvj)).mono fun _ _ h => absurd h hA0
  refine hone.bind fun res hres' => ?_
  obtain ⟨hres, hres1⟩ := hres'
  by_cases hr0 : res = []
  swap
  · simp only [hr0, not_false_eq_true, if_true]
    have hc : ∀ a : Var → K, Zr (A ++ t :: B) a → aeval a (val f) ≠ 0 := fun a ha => hres.ne hr0 (by
      rw [List.append_cons, Zr.append] at ha; exact ha.1)
    refine Conv.ok (wout_iff.2 ⟨Uni.nil fun a h => hc a h.1 h.2, Uni.single hT rfl fun a => ⟨fun h => ⟨h, hc a h⟩, fun h => h.1⟩⟩)
  simp only [hr0, not_true_eq_false, if_false]
  have hl : 1 ≤ (val f).degreeOf (lv ord A.length) := Nat.one_le_iff_ne_zero.2 fun e => degreeOf_zero_iff.1 e hmj
  have hlm := hred A t B rfl
  refine (subC_conv ho ht0.ok hf (lv ord A.length) rfl rfl hl hlm.le (u := (val t).degreeOf (lv ord A.length)) (by rw [if_pos hlm])).bind fun L hL => ?_
  have hctx : SubCtx ord A.length t f L := ⟨hn, hjo, ht0.ok, hf, ht0.vars, hvj, hl, hlm, hL⟩
  have hgoal : ∀ HG : List (List (PV Mono ℤ)) × List (List (PV Mono ℤ)),
      Uni K ord (A.length + 1) (fun a => Zr A a ∧ (aeval a (val t) = 0 ∧ aeval a (val f) = 0)) HG.1 ∧ Uni K ord (A.length + 1) (fun a => Zr A a ∧ (aeval a (val t) = 0 ∧ aeval a (val f) ≠ 0)) HG.2 →
      WOut K ord (A ++ t :: B) f (HG.1.map (· ++ B), HG.2.map (· ++ B)) := by
    rintro HG ⟨g1, g2⟩
    have k1 := g1.ext hT' (by simp) fun a ha => Zr.append.2 ⟨ha.1, Zr.single.2 ha.2.1⟩
    have k2 := g2.ext hT' (by simp) fun a ha => Zr.append.2 ⟨ha.1, Zr.single.2 ha.2.1⟩
    rw [← List.append_cons] at k1 k2
    refine wout_iff.2 ⟨k1.congr fun a => ?_, k2.congr fun a => ?_⟩
    · rw [List.append_cons, Zr.append, Zr.append, Zr.single]; tauto
    · rw [List.append_cons, Zr.append, Zr.append, Zr.single]; tauto
  refine Conv.bind (P := fun HG => Uni K ord (A.length + 1) (fun a => Zr A a ∧ (aeval a (val t) = 0 ∧ aeval a (val f) = 0)) HG.1 ∧
    Uni K ord (A.length + 1) (fun a => Zr A a ∧ (aeval a (val t) = 0 ∧ aeval a (val f) ≠ 0)) HG.2) ?_ fun HG hHG => Conv.ok (hgoal HG hHG)
  rw [hctx.rs]
  have hlen : (A ++ t :: B).length = A.length + 1 + B.length := by simp; omega
  have hw2 : ∀ g q, RC K ord (g ++ [q]) → g.length = A.length → (val q).degreeOf (lv ord A.length) < (val t).degreeOf (lv ord A.length) →
      Conv (fun k => wrsd ord true k (g ++ [q]) f) (WOut K ord (g ++ [q]) f) := by
    intro g q hr hl hd
    refine ih _ _ hr hf (by rw [List.length_append, List.length_singleton, hl]; exact hvj) ?_
    unfold ChLt
    rcases B.eq_nil_or_concat with rfl | ⟨B', b, rfl⟩
    · exact .inr ⟨by simp [hl], by rw [lastDeg_snoc, lastDeg_snoc, hl]; exact hd⟩
    · left; simp; omega
  have hirr : ∀ (a : Var → K) (i : ℕ), 1 ≤ i → i ≤ (val f).degreeOf (lv ord A.length) → i ∉ regIdx (varCustom ord) (lv ord A.length) L → psc a (lv ord A.length) (val t) (val f) i = 0 :=
    fun a i hi hil hni => hctx.irr hil (fun e => hni (hctx.ds.2 ⟨hi, by omega, e⟩)) a
  have hsort := SubCtx.sorted (varCustom ord) (lv ord A.length) L
  by_cases hA0 : A.length = 0
  · simp only [hA0, Nat.zero_add, if_true]
    obtain rfl := List.length_eq_zero_iff.1 hA0
    have hne : (val t).degreeOf (lv ord 0) ∈ regIdx (varCustom ord) (lv ord 0) L := hctx.ds.2 ⟨by have := hctx.hlm; have := hctx.hl; simp only [List.length_nil] at *; omega, le_rfl, by
      have := hctx.out.top
      simp only [List.length_nil] at this
      simp only [List.length_nil]
      rw [this]⟩
    simp only [List.length_nil] at *
    cases hds : regIdx (varCustom ord) (lv ord 0) L with
    | nil => rw [hds] at hne; simp at hne
    | cons d ds =>
      obtain ⟨d1, d2, d3⟩ := hctx.ds.1 (by rw [hds]; simp : d ∈ _)
      rw [hds, List.pairwise_cons] at hsort
      simp only [List.map_cons, List.getD_cons_succ, List.getD_cons_zero]
      have hpsc0 : ∀ a : Var → K, psc a (lv ord 0) (val t) (val f) 0 = 0 := by
        intro a
        have h1 := hres1 trivial
        rw [hr0] at h1
        have h2 := h1.eq hval0 ht0.val_ne
        have h3 := hctx.low_map (Nat.zero_le _) a
        unfold psc
        rw [← Res.Sub_map, Res.Sub, Nat.sub_zero, Nat.sub_zero, Nat.sub_zero, Res.SB_resultant _ _ (by rw [natDegree_toU]) (by rw [natDegree_toU]) (by omega),
          Polynomial.resultant_comm, ← h2, val_nil, mul_zero, Polynomial.C_0, Polynomial.map_zero, Polynomial.coeff_zero]
      have hconst : ∀ s : PV Mono ℤ, (val s).vars ⊆ Lo ord 1 → val s ≠ 0 → ∀ a : Var → K, aeval a (toU (lv ord 0) (val s)).leadingCoeff ≠ 0 := by
        intro s hs h0 a
        refine const_ne a (Lo_zero (Lo_free (fun w hw => hs ?_) ?_)) (Polynomial.leadingCoeff_ne_zero.2 (toU_ne_zero h0))
        · rw [Polynomial.leadingCoeff] at hw
          exact (toU_coeff _ _ _).vars_subset hw
        · rw [Polynomial.leadingCoeff]
          exact free_coeff _ _ _
      have hlc : ∀ a : Var → K, aeval a (toU (lv ord 0) (val (L.getD d []))).leadingCoeff ≠ 0 := by
        exact hconst _ (hctx.entry d2 d3).2 fun e => by rw [e, degreeOf_zero] at d3; omega
      have hz : ∀ a : Var → K, ∀ i < d, i ≤ (val f).degreeOf (lv ord 0) → psc a (lv ord 0) (val t) (val f) i = 0 := by
        intro a i hi hil
        rcases Nat.eq_zero_or_pos i with rfl | hi0
        · exact hpsc0 a
        · refine hirr a i hi0 hil fun hm => ?_
          rw [hds] at hm
          rcases List.mem_cons.1 hm with rfl | hm
          · omega
          · have := hsort.1 i hm; omega
      have hdl : d ≤ (val f).degreeOf (lv ord 0) := by
        by_contra hc
        have hf' := hconst f hvj hval0 (fun _ => 0)
        refine ev_ne hf' (Res.sub_all_zero (ev_natDegree (htr (fun _ => 0) Zr.nil)) (ev_ne (htr (fun _ => 0) Zr.nil)) ?_ hlm fun i hi => hz (fun _ => 0) i (by omega) hi)
        rw [← natDegree_toU]; exact Polynomial.natDegree_map_le
      obtain ⟨hU, r, e, hr⟩ := gcd_pquo hctx d1 d2 d3 (RC.nil (K := K)) rfl (fun a _ => htr a Zr.nil) (fun a _ => hz a) (fun a _ => hlc a)
      refine Conv.bind (P := fun q => some q = r) ⟨0, r, fun _ _ => e, fun a e => e.symm⟩ fun q hq => ?_
      obtain ⟨q1, q2, q3, q4⟩ := hr q hq.symm
      obtain ⟨k1, k2⟩ := q3 (by omega)
      exact (hw2 [] q k1 rfl (by omega)).bind fun V hV => Conv.ok ⟨hU, k2 V hV⟩
  · simp only [if_neg (show ¬ A.length + 1 = 1 by omega), List.getD_cons_zero, List.tail_cons]
    obtain ⟨z1, z2, z3, z4⟩ := hctx.zero (K := K)
    have hno : ∀ a : Var → K, Zr A a → aeval a (val (L.getD 0 [])) ≠ 0 → aeval a (val t) = 0 → aeval a (val f) ≠ 0 := by
      intro a ha h0 hta hfa
      have := (hctx.gcd_at (Nat.zero_le _) z2 (htr a ha) (fun i hi => absurd hi (Nat.not_lt_zero _)) (by rw [toU_free (degreeOf_zero_iff.1 z2), Polynomial.leadingCoeff_C]; exact h0)).2.2 ⟨hta, hfa⟩
      exact h0 this
    refine (ih A (L.getD 0 []) hA z1 z3 (.inl (by omega))).bind fun W hW => ?_
    obtain ⟨W1, W2⟩ := wout_iff.1 hW
    refine (wrsdLoop_conv hctx (w := fun k => wrsd ord true k) (fun A' g a b c d => ih A' g a c (by rw [b]; exact d) (.inl (by omega))) hw2 _ W.1 _ hsort (fun d hd => hctx.ds.1 hd) W1
      (fun a ha => htr a ha.1) (fun a ha i hi hni => ?_)).bind fun V hV => Conv.ok ⟨hV.1.congr fun a => ?_, ?_⟩
    · rcases Nat.eq_zero_or_pos i with rfl | hi0
      · rw [z4]; exact ha.2
      · exact hirr a i hi0 hi hni
    · constructor
      · rintro ⟨⟨h1, -⟩, h2⟩; exact ⟨h1, h2⟩
      · rintro ⟨h1, h2⟩
        refine ⟨⟨h1, ?_⟩, h2⟩
        by_contra hc
        exact hno a h1 hc h2.1 h2.2
    · have k := W2.ext (B := [t]) (RC.snoc.2 ⟨hA, ht0, htr⟩) rfl fun a ha => ha.1
      rw [List.length_append, List.length_singleton] at k
      refine (k.append hV.2).congr fun a => ?_
      rw [Zr.single]
      constructor
      · rintro (⟨⟨h1, h2⟩, h3⟩ | ⟨⟨h1, h2⟩, h3⟩)
        · exact ⟨h1, h3, hno a h1 h2 h3⟩
        · exact ⟨h1, h3⟩
      · rintro ⟨h1, h2, h3⟩
        by_cases hc : aeval a (val (L.getD 0 [])) = 0
        · exact .inr ⟨⟨h1, hc⟩, h2, h3⟩
        · exact .inl ⟨⟨h1, hc⟩, h2⟩


/-- `wrsd` -/
theorem wrsd_conv (hn : ord.Nodup) : ∀ (T : List (PV Mono ℤ)) (f : PV Mono ℤ), RC K ord T → LP (varCustom ord) f → (val f).vars ⊆ Lo ord T.length →
    Conv (fun k => wrsd ord true k T f) (WOut K ord T f) := by
  have hwf : WellFounded (ChLt ord) := by
    refine Subrelation.wf (r := InvImage (Prod.Lex (· < ·) (· < ·)) fun T : List (PV Mono ℤ) => (T.length, lastDeg ord T)) ?_ (InvImage.wf _ (WellFounded.prod_lex Nat.lt_wfRel.wf Nat.lt_wfRel.wf))
    rintro T' T (h | ⟨h1, h2⟩)
    · exact Prod.Lex.left _ _ h
    · show Prod.Lex _ _ (T'.length, _) (T.length, _)
      rw [h1]; exact Prod.Lex.right _ h2
  intro T
  induction T using hwf.induction with
  | _ T ih =>
    intro f hT hf hv
    have ih' : ∀ T' f', RC K ord T' → LP (varCustom ord) f' → (val f').vars ⊆ Lo ord T'.length → ChLt ord T' T → Conv (fun k => wrsd ord true k T' f') (WOut K ord T' f') :=
      fun T' f' a b c d => ih T' d f' a b c
    obtain ⟨r, e, hr⟩ := redChain_out hn hT hf
    cases r with
    | none =>
      refine Conv.succ ?_
      simp only [wrsd, e]
      exact Conv.give
    | some g =>
      have hg := hr g rfl
      have hred := wrsd_red hn hT hg.ok (hg.vars _ le_rfl hv) ih' hg.red
      have hgc : Conv (fun k => wrsd ord true k T g) (WOut K ord T g) := by
        rcases redChain_id hn hT.1 hg.ok hg.red with h | h
        · refine Conv.succ ?_
          simp only [wrsd, h]
          exact Conv.give
        · exact hred h
      by_cases hfg : f = g
      · rw [hfg]; exact hgc
      · refine Conv.succ ?_
        simp only [wrsd, e]
        simp only [show ∀ F : PV Mono ℤ → O2 (List (List (PV Mono ℤ)) × List (List (PV Mono ℤ))), bind2 (some (some g)) F = F g from fun _ => rfl, ne_eq, hfg, not_false_eq_true, if_true]
        refine hgc.mono fun W hW => wout_iff.2 ?_
        obtain ⟨h1, h2⟩ := wout_iff.1 hW
        exact ⟨h1.congr fun a => and_congr_right fun ha => hg.zero a ha, h2.congr fun a => and_congr_right fun ha => (hg.zero a ha).not⟩

end main

end Charset
end CLPoly
