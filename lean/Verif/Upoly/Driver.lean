import Verif.Upoly.Select

/-! # `__lll_factorize`, `__factor_squarefree_primitive_ZZ`, `factorize` over ℤ in one variable -/

namespace CLPoly
namespace Upoly
open Polynomial UniqueFactorizationMonoid

/-! ## counting irreducible factors modulo `p` -/

section
variable {p : Nat} [hp : Fact p.Prime]

theorem card_prod : ∀ {l : List (ZMod p)[X]}, (∀ a ∈ l, a ≠ 0) → Multiset.card (normalizedFactors l.prod) = (l.map fun a => Multiset.card (normalizedFactors a)).sum
  | [], _ => by simp
  | a :: l, h => by
    have h1 : l.prod ≠ 0 := List.prod_ne_zero fun h0 => h 0 (by simp [h0]) rfl
    rw [List.prod_cons, normalizedFactors_mul (h a (by simp)) h1, Multiset.card_add, card_prod fun b hb => h b (by simp [hb]), List.map_cons, List.sum_cons]

theorem card_irr {a : (ZMod p)[X]} (h : Irreducible a) : Multiset.card (normalizedFactors a) = 1 := by rw [normalizedFactors_irreducible h]; simp

theorem card_associated {a b : (ZMod p)[X]} (h : Associated a b) : Multiset.card (normalizedFactors a) = Multiset.card (normalizedFactors b) := by
  rw [h.normalizedFactors_eq]

theorem irr_of_card {a : (ZMod p)[X]} (h0 : a ≠ 0) (h : Multiset.card (normalizedFactors a) = 1) : Irreducible a := by
  obtain ⟨b, hb⟩ := Multiset.card_eq_one.1 h
  have h1 : Irreducible b := irreducible_of_normalized_factor b (by rw [hb]; simp)
  have h2 := prod_normalizedFactors h0
  rw [hb, Multiset.prod_singleton] at h2
  exact h2.irreducible h1

theorem card_pos {a : (ZMod p)[X]} (h0 : a ≠ 0) (h : 0 < a.natDegree) : 1 ≤ Multiset.card (normalizedFactors a) := by
  rw [Nat.one_le_iff_ne_zero, Ne, Multiset.card_eq_zero, normalizedFactors_eq_zero_iff h0]
  intro hu
  have := natDegree_eq_zero_of_isUnit hu
  omega

theorem all_one_of_sum : ∀ {l : List Nat}, (∀ a ∈ l, 1 ≤ a) → l.sum ≤ l.length → ∀ a ∈ l, a = 1
  | [], _, _ => by simp
  | a :: l, h, hs => by
    have key : ∀ {l : List Nat}, (∀ a ∈ l, 1 ≤ a) → l.length ≤ l.sum := by
      intro l
      induction l with
      | nil => simp
      | cons b l ih =>
        intro h
        have := h b (by simp)
        have := ih fun c hc => h c (by simp [hc])
        simp only [List.length_cons, List.sum_cons]
        omega
    have h1 := h a (by simp)
    have h2 := key fun b hb => h b (List.mem_cons_of_mem a hb)
    simp only [List.length_cons, List.sum_cons] at hs
    intro b hb
    rcases List.mem_cons.1 hb with rfl | hb
    · omega
    · exact all_one_of_sum (fun c hc => h c (by simp [hc])) (by omega) b hb

/-- as many factors as modular factors: all irreducible -/
theorem irreducible_of_count {F : ℤ[X]} {fs : List (UPoly (ZMod p))} (S : SelOK p F fs) {Rs : List ℤ[X]} (h1 : Associated Rs.prod F) (h2 : ∀ R ∈ Rs, R.IsPrimitive ∧ 0 < R.natDegree)
    (hlen : fs.length ≤ Rs.length) : ∀ R ∈ Rs, Irreducible R := by
  have hlc : ∀ R ∈ Rs, ¬ (p : ℤ) ∣ R.leadingCoeff := fun R hR => lc_of_dvd S.lc ((List.dvd_prod hR).trans h1.dvd)
  have hne : ∀ a ∈ Rs.map (red p), a ≠ 0 := fun a ha => by
    obtain ⟨R, hR, rfl⟩ := List.mem_map.1 ha
    exact red_ne_zero (hlc R hR)
  have e1 : red p Rs.prod = (Rs.map (red p)).prod := by
    show (mapRingHom (Int.castRingHom (ZMod p))) Rs.prod = _
    rw [map_list_prod]
    rfl
  have e2 : Associated (red p Rs.prod) (fs.map toPoly).prod := by
    have : Associated (red p Rs.prod) (red p F) := by
      obtain ⟨u, hu⟩ := h1
      exact ⟨u.map (mapRingHom (Int.castRingHom (ZMod p))).toMonoidHom, by rw [← hu]; exact (Polynomial.map_mul _).symm⟩
    refine this.trans ?_
    rw [show red p F = _ from S.prod]
    exact associated_unit_mul_left _ _ (unit_C S.lc)
  have hc := card_associated e2
  rw [e1, card_prod hne, card_prod fun a ha => by
    obtain ⟨g, hg, rfl⟩ := List.mem_map.1 ha
    exact (S.mi g hg).2.ne_zero] at hc
  have e3 : ((fs.map toPoly).map fun a => Multiset.card (normalizedFactors a)) = List.replicate fs.length 1 := by
    rw [List.eq_replicate_iff]
    refine ⟨by simp, fun b hb => ?_⟩
    obtain ⟨a, ha, rfl⟩ := List.mem_map.1 hb
    obtain ⟨g, hg, rfl⟩ := List.mem_map.1 ha
    exact card_irr (S.mi g hg).2
  rw [e3, List.sum_replicate, smul_eq_mul, mul_one] at hc
  intro R hR
  have h3 := all_one_of_sum (l := (Rs.map (red p)).map fun a => Multiset.card (normalizedFactors a)) (fun b hb => by
    obtain ⟨a, ha, rfl⟩ := List.mem_map.1 hb
    obtain ⟨R, hR, rfl⟩ := List.mem_map.1 ha
    exact card_pos (red_ne_zero (hlc R hR)) (by rw [red_natDegree (hlc R hR)]; exact (h2 R hR).2)) (by rw [hc]; simpa using hlen)
    _ (List.mem_map_of_mem (List.mem_map_of_mem hR))
  have h4 := irr_of_card (red_ne_zero (hlc R hR)) h3
  refine prim_irreducible (h2 R hR).1 (h2 R hR).2 fun A B e dA dB => ?_
  have lA := lc_of_dvd (hlc R hR) (Dvd.intro _ e.symm)
  have lB := lc_of_dvd (hlc R hR) (Dvd.intro_left _ e.symm)
  rw [e, red_mul] at h4
  rcases h4.isUnit_or_isUnit rfl with hu | hu
  · have := natDegree_eq_zero_of_isUnit hu
    rw [red_natDegree lA] at this
    omega
  · have := natDegree_eq_zero_of_isUnit hu
    rw [red_natDegree lB] at this
    omega

/-- the lattice part never merges modular factors of different true factors -/
def RowsSep (p : Nat) (F : ℤ[X]) (rows : Rows) : Prop :=
  ∀ n jt f' T' rw, Canon comp f' → toPoly f' ∣ F → rows n jt f' T' = some rw → ∀ c ∈ candidates rw T'.length, Sep p (toPoly f') T' c

/-- `__lll_factorize` -/
theorem lllFactorize_spec {ah : Nat} {rows1 rows2 : Rows} (hr1 : ∀ n jt f T, rows1 n jt f T ≠ none) (hr2 : ∀ n jt f T, rows2 n jt f T ≠ none) {sort : List (UPoly ℤ) → List (UPoly ℤ)}
    (hsort : ∀ l, (sort l).Perm l) {f : UPoly ℤ} {F : ℤ[X]} (hf : Is f F) (pF : F.IsPrimitive) (hd : 0 < F.natDegree) {fs : List (UPoly (ZMod p))} (S : SelOK p F fs) (hlen : 2 ≤ fs.length) :
    ∃ res Rs, lllFactorize ah rows1 rows2 sort p f fs = some res ∧ List.Forall₂ Is res Rs ∧ Associated Rs.prod F ∧ (∀ R ∈ Rs, R.IsPrimitive ∧ 0 < R.natDegree) ∧
      (RowsSep p F rows1 → RowsSep p F rows2 → ∀ R ∈ Rs, Irreducible R) := by
  have F0 : F ≠ 0 := pF.ne_zero
  have pp := hp.out.one_lt
  have pp' : (1 : ℤ) < p := by exact_mod_cast pp
  obtain ⟨a, b, B, s1, s2, s3, _, s4, s5, _⟩ := startPrecision_spec (ah := ah) pp hf F0
  have hfs : List.Forall₂ Is fs (fs.map toPoly) := by
    have hc := S.canon
    clear S hlen
    induction fs with
    | nil => exact .nil
    | cons g l ih => exact .cons (is_of_canon (hc g (by simp))) (ih fun g hg => hc g (by simp [hg]))
  have hmi : ∀ A ∈ fs.map toPoly, A.Monic ∧ Irreducible A := fun A hA => by
    obtain ⟨g, hg, rfl⟩ := List.mem_map.1 hA
    exact S.mi g hg
  have hcop := good_of_forall₂.coprime_of_nodup hmi S.nodup
  have lift := fun a => henselLift_spec hf S.lc hfs (by simpa using hlen) (fun A hA => (hmi A hA).1) hcop S.prod a
  have vh : ∀ {rows : Rows}, (∀ n jt f T, rows n jt f T ≠ none) → ∀ a r k Ts, henselLift p f fs a = some (r, (p : ℤ) ^ (2 ^ k)) → List.Forall₂ Is r Ts → (∀ R ∈ Ts, R.Monic) →
      List.Forall₂ (fun R A => R.map (Int.castRingHom (ZMod p)) = A ∧ R.natDegree = A.natDegree) Ts (fs.map toPoly) → Cong ((p : ℤ) ^ (2 ^ k)) (C F.leadingCoeff * Ts.prod) F →
      ∃ res Rs, vanHoeij rows sort ((p : ℤ) ^ (2 ^ k)) f r = some res ∧ List.Forall₂ Is res Rs ∧ Associated Rs.prod F ∧ (∀ R ∈ Rs, R.IsPrimitive ∧ 0 < R.natDegree) ∧
      (2 * |F.leadingCoeff| * B < (p : ℤ) ^ (2 ^ k) → RowsSep p F rows → ∀ R ∈ Rs, Irreducible R) := by
    intro rows hrows a r k Ts h1 h2 h3 h4 h5
    have good := good_of_forall₂ h4 h3 hmi S.nodup
    have hm1 : 1 < (p : ℤ) ^ 2 ^ k := one_lt_pow₀ pp' (by positivity)
    obtain ⟨res, Rs, v1, v2, v3, v4, _, v6⟩ := vanHoeij_spec hrows hsort hm1 hf pF hd (coprime_pow_lc S.lc _) h2 fun A hA => ⟨h3 A hA, good_pos good A hA⟩
    refine ⟨res, Rs, v1, v2, v3, v4, fun hB hsep => v6 p (2 ^ k) ⟨by positivity, rfl, good, S.lc, h5, fun G hG i => ?_⟩ fun n jt f' T' rw c1 c2 _ c3 c c4 => hsep n jt f' T' rw c1 c2 c3 c c4⟩
    obtain ⟨B', c1, _, c2, _⟩ := mignotte_spec hf F0
    obtain rfl : B' = B := by rw [s2] at c1; exact (Option.some.inj c1).symm
    exact lt_of_le_of_lt (mul_le_mul_of_nonneg_left (c2 G hG i) (by positivity)) hB
  obtain ⟨r1, k1, T1, a1, a2, a3, _, a4, a5, _, a6⟩ := lift a
  obtain ⟨res, Rs, v1, v2, v3, v4, v5⟩ := vh hr1 a r1 k1 T1 a1 a2 a3 a4 a5
  unfold lllFactorize
  rw [s1, Option.bind_some, a1, Option.bind_some, v1, Option.bind_some]
  split
  · obtain ⟨r2, k2, T2, b1, b2, b3, _, b4, b5, b6, _⟩ := lift 0
    obtain ⟨res2, Rs2, w1, w2, w3, w4, w5⟩ := vh hr2 0 r2 k2 T2 b1 b2 b3 b4 b5
    rw [b1, Option.bind_some, w1]
    refine ⟨res2, Rs2, rfl, w2, w3, w4, fun _ hsep => w5 ?_ hsep⟩
    obtain ⟨B', c1, c2⟩ := b6 rfl
    obtain rfl : B' = B := by rw [s2] at c1; exact (Option.some.inj c1).symm
    exact c2
  · next hc =>
    refine ⟨res, Rs, rfl, v2, v3, v4, fun hsep _ => ?_⟩
    simp only [not_and_or, not_lt] at hc
    rcases hc with hc | hc
    · exact irreducible_of_count S v3 v4 (by rw [← v2.length_eq]; exact hc)
    · obtain rfl : a = b := by omega
      exact v5 (lt_of_lt_of_le s3 (a6 (by omega))) hsep

end

/-- `__factor_squarefree_primitive_ZZ`: what it returns -/
theorem factorSqfPrim_spec {fuel : Nat} {ps : List ({p : Nat // p.Prime} × List Nat)} (hps : ∀ x ∈ ps, x.1.1 < W ∧ ∀ c ∈ x.2, c < x.1.1) {ah : Nat} {rows1 rows2 : Rows}
    (hr1 : ∀ n jt f T, rows1 n jt f T ≠ none) (hr2 : ∀ n jt f T, rows2 n jt f T ≠ none) {sort : List (UPoly ℤ) → List (UPoly ℤ)}
    (hsort : ∀ l, (sort l).Perm l) {f : UPoly ℤ} {F : ℤ[X]} (hf : Is f F) (pF : F.IsPrimitive) (hd : 2 ≤ F.natDegree) (lF : F.natDegree + 1 < W) :
    (factorSqfPrim fuel ps ah rows1 rows2 sort f = none ↔ selectLoop fuel f ps 0 none = none) ∧
    ∀ res, factorSqfPrim fuel ps ah rows1 rows2 sort f = some res → ∃ Rs, List.Forall₂ Is res Rs ∧ Associated Rs.prod F ∧ (∀ R ∈ Rs, R.IsPrimitive ∧ 0 < R.natDegree) ∧
      ((∀ p : Nat, p.Prime → RowsSep p F rows1 ∧ RowsSep p F rows2) → ∀ R ∈ Rs, Irreducible R) := by
  have hne : ¬ (f = [] ∨ deg f < 2) := by rw [is_nil_iff hf, is_deg hf]; simp only [pF.ne_zero, false_or]; omega
  unfold factorSqfPrim
  rw [if_neg hne]
  cases es : selectLoop fuel f ps 0 none with
  | none => simp
  | some s =>
    obtain ⟨S, hS⟩ := selectLoop_spec hf lF (by omega) ps 0 none s hps (by simp) es
    rw [Option.bind_some]
    have := s.prime
    have hmon : s.factors.length ≠ 0 := fun h0 => by
      have h2 := S.prod
      rw [List.length_eq_zero_iff.1 h0, List.map_nil, List.prod_nil, mul_one] at h2
      have h3 : (red s.p F).natDegree = 0 := by
        show (Polynomial.map _ F).natDegree = 0
        rw [h2, natDegree_C]
      rw [red_natDegree S.lc] at h3
      omega
    by_cases hc : s.irreducible = true ∨ s.factors.length ≤ 1
    · rw [if_pos hc]
      refine ⟨by simp, fun res hres => ?_⟩
      cases hres
      refine ⟨[F], .cons hf .nil, by simp, by simpa using ⟨pF, by omega⟩, fun _ => ?_⟩
      refine irreducible_of_count S (by simp) (by simpa using ⟨pF, by omega⟩) ?_
      rcases hc with h | h
      · rw [hS h]; simp
      · simpa using h
    · rw [if_neg hc]
      rw [not_or] at hc
      obtain ⟨res, Rs, h1, h2, h3, h4, h5⟩ := lllFactorize_spec (ah := ah) hr1 hr2 hsort hf pF (by omega) S (by omega)
      refine ⟨by rw [h1]; simp, fun res' hres => ?_⟩
      rw [h1] at hres
      cases hres
      exact ⟨Rs, h2, h3, h4, fun hsep => h5 (hsep _ s.prime.out).1 (hsep _ s.prime.out).2⟩

/-! ## `factorize` -/

theorem flipSign_is {f : UPoly ℤ} {F : ℤ[X]} (hf : Is f F) (h0 : F ≠ 0) : ∃ G, Is (flipSign f) G ∧ 0 < G.leadingCoeff ∧ Associated G F := by
  unfold flipSign
  rw [is_lc hf]
  split
  · next h =>
    refine ⟨-F, neg_is hf, by rw [leadingCoeff_neg]; omega, ?_⟩
    exact (Associated.refl F).neg_left
  · next h =>
    have := leadingCoeff_ne_zero.2 h0
    exact ⟨F, hf, by omega, .refl _⟩

theorem eq_of_associated_pos {A B : ℤ[X]} (h : Associated A B) (hA : 0 < A.leadingCoeff) (hB : 0 < B.leadingCoeff) : A = B := by
  rcases associated_int h with h | h
  · exact h
  · rw [h, leadingCoeff_neg] at hA
    omega

theorem prod_lc_pos : ∀ {l : List ℤ[X]}, (∀ A ∈ l, 0 < A.leadingCoeff) → 0 < l.prod.leadingCoeff
  | [], _ => by simp
  | a :: l, h => by
    rw [List.prod_cons, leadingCoeff_mul]
    exact mul_pos (h a (by simp)) (prod_lc_pos fun b hb => h b (by simp [hb]))

/-- the product of polynomials with multiplicities -/
noncomputable abbrev powProd (l : List (UPoly ℤ × Nat)) : ℤ[X] := (l.map fun x => toPoly x.1 ^ x.2).prod

/-- what the squarefree decomposition of `G` is required to return: numbers with multiplicity 1 and primitive polynomials with positive leading coefficient, with product `G` -/
structure SqfParts (G : ℤ[X]) (l : List (UPoly ℤ × Nat)) : Prop where
  canon : ∀ x ∈ l, Canon comp x.1
  part : ∀ x ∈ l, ((toPoly x.1).natDegree = 0 ∧ x.2 = 1) ∨ ((toPoly x.1).IsPrimitive ∧ 0 < (toPoly x.1).leadingCoeff ∧ 0 < (toPoly x.1).natDegree ∧ x.2 ≠ 0)
  prod : powProd l = G

/-- the factors of one squarefree part after the change of sign -/
theorem flip_map {res : List (UPoly ℤ)} {Rs : List ℤ[X]} {H : ℤ[X]} (h1 : List.Forall₂ Is res Rs) (h2 : ∀ R ∈ Rs, R.IsPrimitive ∧ 0 < R.natDegree) (h3 : Associated Rs.prod H) (hH : 0 < H.leadingCoeff) (e : Nat) :
    powProd (res.map fun g => (flipSign g, e)) = H ^ e ∧ (∀ x ∈ res.map fun g => (flipSign g, e), Canon comp x.1 ∧ (toPoly x.1).IsPrimitive ∧ 0 < (toPoly x.1).leadingCoeff ∧ 0 < (toPoly x.1).natDegree ∧ x.2 = e) ∧
      ((∀ R ∈ Rs, Irreducible R) → ∀ x ∈ res.map fun g => (flipSign g, e), Irreducible (toPoly x.1)) := by
  have key : ∀ (res : List (UPoly ℤ)) (Rs : List ℤ[X]), List.Forall₂ Is res Rs → (∀ R ∈ Rs, R.IsPrimitive ∧ 0 < R.natDegree) →
      Associated (res.map fun g => toPoly (flipSign g)).prod Rs.prod ∧ (∀ g ∈ res, Canon comp (flipSign g) ∧ 0 < (toPoly (flipSign g)).leadingCoeff ∧ ∃ R ∈ Rs, Associated (toPoly (flipSign g)) R) := by
    intro res Rs h
    induction h with
    | nil => simp
    | @cons g R _ _ ha _ ih =>
      intro h2
      obtain ⟨G, g1, g2, g3⟩ := flipSign_is ha (h2 R (by simp)).1.ne_zero
      obtain ⟨i1, i2⟩ := ih fun A hA => h2 A (by simp [hA])
      refine ⟨?_, fun x hx => ?_⟩
      · rw [List.map_cons, List.prod_cons, List.prod_cons]
        exact (show Associated (toPoly (flipSign g)) R from g1.eq ▸ g3).mul_mul i1
      · rcases List.mem_cons.1 hx with rfl | hx
        · exact ⟨g1.canon, g1.eq ▸ g2, R, by simp, g1.eq ▸ g3⟩
        · obtain ⟨a, b, A, hA, c⟩ := i2 x hx
          exact ⟨a, b, A, by simp [hA], c⟩
  obtain ⟨k1, k2⟩ := key res Rs h1 h2
  have hp : (res.map fun g => toPoly (flipSign g)).prod = H := by
    refine eq_of_associated_pos (k1.trans h3) (prod_lc_pos fun A hA => ?_) hH
    obtain ⟨g, hg, rfl⟩ := List.mem_map.1 hA
    exact (k2 g hg).2.1
  refine ⟨?_, fun x hx => ?_, fun hirr x hx => ?_⟩
  · rw [← hp, powProd, List.map_map]
    show (res.map fun g => toPoly (flipSign g) ^ e).prod = _
    clear h1 h2 h3 k1 k2 hp key
    induction res with
    | nil => simp
    | cons g l ih => simp only [List.map_cons, List.prod_cons, mul_pow, ih]
  · obtain ⟨g, hg, rfl⟩ := List.mem_map.1 hx
    obtain ⟨a, b, A, hA, c⟩ := k2 g hg
    exact ⟨a, fun r hr => (h2 A hA).1 r (hr.trans c.dvd), b, by
      rw [natDegree_eq_of_degree_eq (degree_eq_degree_of_associated c)]; exact (h2 A hA).2, rfl⟩
  · obtain ⟨g, hg, rfl⟩ := List.mem_map.1 hx
    obtain ⟨a, b, A, hA, c⟩ := k2 g hg
    exact c.symm.irreducible (hirr A hA)

theorem deg_one_irreducible {F : ℤ[X]} (hF : F.IsPrimitive) (h : F.natDegree = 1) : Irreducible F :=
  prim_irreducible hF (by omega) fun A B e dA dB => by
    have : F.natDegree = A.natDegree + B.natDegree := by
      rw [e, natDegree_mul (fun h => by simp [h] at dA) (fun h => by simp [h] at dB)]
    omega

theorem factorizeParts_spec {fact : UPoly ℤ → Option (List (UPoly ℤ))} {N : Nat}
    (hfact : ∀ f F, Is f F → F.IsPrimitive → 0 < F.leadingCoeff → 2 ≤ F.natDegree → F.natDegree ≤ N → ∀ res, fact f = some res → ∃ Rs, List.Forall₂ Is res Rs ∧ Associated Rs.prod F ∧ ∀ R ∈ Rs, R.IsPrimitive ∧ 0 < R.natDegree) :
    ∀ (l : List (UPoly ℤ × Nat)) (s : ℤ × List (UPoly ℤ × Nat)) (r : ℤ × List (UPoly ℤ × Nat)), (∀ x ∈ l, Canon comp x.1) →
      (∀ x ∈ l, ((toPoly x.1).natDegree = 0 ∧ x.2 = 1) ∨ ((toPoly x.1).IsPrimitive ∧ 0 < (toPoly x.1).leadingCoeff ∧ 0 < (toPoly x.1).natDegree ∧ x.2 ≠ 0)) →
      (∀ x ∈ l, (toPoly x.1).natDegree ≤ N) → factorizeParts fact l s = some r →
      ∃ new, r.2 = s.2 ++ new ∧ C r.1 * powProd new = C s.1 * powProd l ∧
        (∀ x ∈ new, Canon comp x.1 ∧ (toPoly x.1).IsPrimitive ∧ 0 < (toPoly x.1).leadingCoeff ∧ 0 < (toPoly x.1).natDegree ∧ x.2 ≠ 0) ∧
        ((∀ x ∈ l, (toPoly x.1).IsPrimitive → 0 < (toPoly x.1).leadingCoeff → 2 ≤ (toPoly x.1).natDegree → ∀ res, fact x.1 = some res → ∀ g ∈ res, Irreducible (toPoly g)) → ∀ x ∈ new, Irreducible (toPoly x.1)) := by
  intro l
  induction l with
  | nil =>
    intro s r _ _ _ h
    cases h
    exact ⟨[], by simp, rfl, by simp, by simp⟩
  | cons x l ih =>
    intro s r hc hp hN h
    have e : factorizeParts fact (x :: l) s = if x.1 = [] ∨ deg x.1 = 0 then factorizeParts fact l (s.1 * lc x.1, s.2)
      else if deg x.1 ≤ 1 then factorizeParts fact l (s.1, s.2 ++ [x])
      else (fact x.1).bind fun irr => factorizeParts fact l (s.1, s.2 ++ irr.map fun g => (flipSign g, x.2)) := rfl
    rw [e] at h
    have hx : Is x.1 (toPoly x.1) := is_of_canon (hc x (by simp))
    simp only [is_nil_iff hx, is_deg hx, is_lc hx] at h
    replace ih := fun s r => ih s r (fun y hy => hc y (by simp [hy])) (fun y hy => hp y (by simp [hy])) fun y hy => hN y (by simp [hy])
    have pp : ∀ y l, powProd (y :: l) = toPoly y.1 ^ y.2 * powProd l := fun y l => by simp [powProd]
    rcases hp x (by simp) with ⟨d0, x2⟩ | ⟨px, lx, dx, x2⟩
    · rw [if_pos (.inr d0)] at h
      obtain ⟨new, n2, n3, n4, n5⟩ := ih _ _ h
      refine ⟨new, n2, ?_, n4, fun hi => n5 fun y hy => hi y (by simp [hy])⟩
      rw [n3, pp, x2, pow_one, C_mul, mul_assoc]
      congr 2
      rw [leadingCoeff, d0]
      exact (eq_C_of_natDegree_eq_zero d0).symm
    · have h0 : ¬ (toPoly x.1 = 0 ∨ (toPoly x.1).natDegree = 0) := by
        rw [not_or]
        exact ⟨px.ne_zero, by omega⟩
      rw [if_neg h0] at h
      split at h
      · next h1 =>
        obtain ⟨new, n2, n3, n4, n5⟩ := ih _ _ h
        refine ⟨x :: new, by rw [n2]; simp, ?_, fun y hy => ?_, fun hi y hy => ?_⟩
        · rw [pp, pp, mul_left_comm, n3]
          ring
        · rcases List.mem_cons.1 hy with rfl | hy
          · exact ⟨hx.canon, px, lx, by omega, x2⟩
          · exact n4 y hy
        · rcases List.mem_cons.1 hy with rfl | hy
          · exact deg_one_irreducible px (by omega)
          · exact n5 (fun z hz => hi z (by simp [hz])) y hy
      · next h1 =>
        cases ef : fact x.1 with
        | none => rw [ef] at h; cases h
        | some irr =>
          rw [ef, Option.bind_some] at h
          obtain ⟨new, n2, n3, n4, n5⟩ := ih _ _ h
          obtain ⟨Rs, r1, r2, r3⟩ := hfact _ _ hx px lx (by omega) (hN x (by simp)) irr ef
          obtain ⟨f1, f2, f3⟩ := flip_map r1 r3 r2 lx x.2
          refine ⟨(irr.map fun g => (flipSign g, x.2)) ++ new, by rw [n2]; simp, ?_, fun y hy => ?_, fun hi y hy => ?_⟩
          · have : powProd ((irr.map fun g => (flipSign g, x.2)) ++ new) = toPoly x.1 ^ x.2 * powProd new := by
              rw [← f1, powProd, List.map_append, List.prod_append]
            rw [this, pp, mul_left_comm, n3]
            ring
          · rcases List.mem_append.1 hy with hy | hy
            · obtain ⟨a, b, c, d, z⟩ := f2 y hy
              exact ⟨a, b, c, d, by rw [z]; exact x2⟩
            · exact n4 y hy
          · rcases List.mem_append.1 hy with hy | hy
            · refine f3 (fun R hR => ?_) y hy
              obtain ⟨i1, i2⟩ := forall2_toPoly_of r1
              rw [i1] at hR
              obtain ⟨g, hg, rfl⟩ := List.mem_map.1 hR
              exact hi x (by simp) px lx (by omega) irr ef g hg
            · exact n5 (fun z hz => hi z (by simp [hz])) y hy

/-- `factorize` on univariate integer polynomials, given the squarefree decomposition -/
theorem factorize_spec {sqf : UPoly ℤ → Option (List (UPoly ℤ × Nat))} {fact : UPoly ℤ → Option (List (UPoly ℤ))} {sort : List (UPoly ℤ × Nat) → List (UPoly ℤ × Nat)} (hsort : ∀ l, (sort l).Perm l)
    {f : UPoly ℤ} {F : ℤ[X]} (hf : Is f F) (hsqf : ∀ l, sqf (primitive f).2 = some l → SqfParts (toPoly (primitive f).2) l)
    (hfact : ∀ g G, Is g G → G.IsPrimitive → 0 < G.leadingCoeff → 2 ≤ G.natDegree → G.natDegree ≤ F.natDegree → ∀ res, fact g = some res →
      ∃ Rs, List.Forall₂ Is res Rs ∧ Associated Rs.prod G ∧ ∀ R ∈ Rs, R.IsPrimitive ∧ 0 < R.natDegree) {c : ℤ} {l : List (UPoly ℤ × Nat)} (h : factorize sqf fact sort f = some (c, l)) :
    C c * powProd l = F ∧ (∀ x ∈ l, Canon comp x.1 ∧ (toPoly x.1).IsPrimitive ∧ 0 < (toPoly x.1).natDegree ∧ x.2 ≠ 0) ∧
      ((∀ g G, Is g G → G.IsPrimitive → 0 < G.leadingCoeff → 2 ≤ G.natDegree → G.natDegree ≤ F.natDegree → ∀ res, fact g = some res → ∀ r ∈ res, Irreducible (toPoly r)) → ∀ x ∈ l, Irreducible (toPoly x.1)) := by
  unfold factorize at h
  simp only [is_nil_iff hf, is_deg hf, is_lc hf] at h
  split at h
  · next h0 => cases h; subst h0; simp
  next h0 =>
  split at h
  · next hd =>
    cases h
    refine ⟨?_, by simp, by simp⟩
    rw [leadingCoeff, hd, powProd, List.map_nil, List.prod_nil, mul_one]
    exact (eq_C_of_natDegree_eq_zero hd).symm
  next hd =>
  obtain ⟨H, h1, h2, h3, hc, _⟩ := primitive_any hf h0
  have dH : H.natDegree = F.natDegree := by
    conv_rhs => rw [h3]
    rw [natDegree_C_mul hc]
  simp only [is_deg h1] at h
  rw [h1.eq] at hsqf
  split at h
  · next hd1 =>
    cases h
    refine ⟨?_, ?_, ?_⟩
    · simp only [powProd, List.map_cons, List.map_nil, List.prod_cons, List.prod_nil, mul_one, pow_one]
      rw [h1.eq, ← h3]
    · simpa using ⟨h1.canon, h1.eq ▸ ⟨h2, by omega⟩⟩
    · intro _
      simpa using h1.eq ▸ deg_one_irreducible h2 (by omega)
  · cases es : sqf (primitive f).2 with
    | none => rw [es] at h; cases h
    | some sq =>
      rw [es, Option.bind_some] at h
      have S := hsqf sq es
      have hdeg : ∀ x ∈ sq, (toPoly x.1).natDegree ≤ F.natDegree := fun x hx => by
        have hx2 : x.2 ≠ 0 := by
          rcases S.part x hx with h | h
          · omega
          · exact h.2.2.2
        have : toPoly x.1 ∣ H := by
          rw [← S.prod]
          exact (dvd_pow_self _ hx2).trans (List.dvd_prod (List.mem_map_of_mem (f := fun x : UPoly ℤ × Nat => toPoly x.1 ^ x.2) hx))
        rw [← dH]
        exact natDegree_le_of_dvd this h2.ne_zero
      cases ep : factorizeParts fact sq ((primitive f).1, []) with
      | none => rw [ep] at h; cases h
      | some r =>
        rw [ep] at h
        cases h
        obtain ⟨new, n2, n3, n4, n5⟩ := factorizeParts_spec hfact sq _ r S.canon S.part hdeg ep
        rw [List.nil_append] at n2
        have hp := hsort r.2
        refine ⟨?_, fun x hx => ?_, fun hi x hx => ?_⟩
        · have : powProd (sort r.2) = powProd r.2 := (hp.map _).prod_eq
          rw [this, n2, n3, S.prod, ← h3]
        · obtain ⟨a, b, c, d, e⟩ := n4 x (n2 ▸ hp.subset hx)
          exact ⟨a, b, d, e⟩
        · refine n5 (fun y hy p1 p2 hy2 res hr g hg => ?_) x (n2 ▸ hp.subset hx)
          exact hi y.1 _ (is_of_canon (S.canon y hy)) p1 p2 hy2 (hdeg y hy) res hr g hg

end Upoly
end CLPoly
