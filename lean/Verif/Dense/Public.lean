import Verif.Dense.Hgcd
import Mathlib.Tactic.LinearCombination

/-! The public operations of `dense_upoly_zp` as operations on polynomials over `ZMod p`. -/

namespace CLPoly
namespace Dense
open Polynomial

/-- SPECIFICATION.  The object `f`, with modulus `p`, represents the polynomial `F`: `f[i]` is the representative in `[0, p)` of the
coefficient of `X^i`, and the last stored coefficient is not zero, so that `f.size()` is the degree plus one (0 for the zero polynomial). -/
structure DPoly.Is (p : Nat) (f : DPoly) (F : (ZMod p)[X]) : Prop where
  modulus : f.c = precompute p
  below : ∀ a ∈ f.coeffs, a < p
  trim : ∀ h : f.coeffs ≠ [], f.coeffs.getLast h ≠ 0
  coeff : ∀ i, ((f.coeffs.getD i 0 : Nat) : ZMod p) = F.coeff i

variable {p : Nat}

theorem DPoly.Is.can {f : DPoly} {F} (h : f.Is p F) : Can p f.coeffs := ⟨h.below, h.trim⟩
theorem DPoly.Is.toP {f : DPoly} {F} (h : f.Is p F) : toP p f.coeffs = F := by
  ext i; rw [coeff_toP, h.coeff]
theorem DPoly.is_of {f : DPoly} {F} (hc : f.c = precompute p) (h : Can p f.coeffs) (e : Dense.toP p f.coeffs = F) : f.Is p F :=
  ⟨hc, h.below, h.trim, fun i => by rw [← coeff_toP, e]⟩

theorem is_unique {f g : DPoly} {F} (hf : f.Is p F) (hg : g.Is p F) : f = g := by
  obtain ⟨a, c⟩ := f
  obtain ⟨b, d⟩ := g
  have h1 : c = d := hf.modulus.trans hg.modulus.symm
  have h2 : a = b := Can.ext hf.can hg.can (hf.toP.trans hg.toP.symm)
  rw [h1, h2]

theorem add_is (hW : p < W) {A B : DPoly} {F G} (hA : A.Is p F) (hB : B.Is p G) : ∃ r, add A B = .ok r ∧ r.Is p (F + G) := by
  unfold add
  rw [hA.modulus, hB.modulus, if_neg (by simp)]
  obtain ⟨h1, h2⟩ := polyAdd_spec hW hA.can.below hB.can.below
  exact ⟨_, rfl, DPoly.is_of rfl h1 (by rw [h2, hA.toP, hB.toP])⟩

theorem sub_is (hW : p < W) {A B : DPoly} {F G} (hA : A.Is p F) (hB : B.Is p G) : ∃ r, sub A B = .ok r ∧ r.Is p (F - G) := by
  unfold sub
  rw [hA.modulus, hB.modulus, if_neg (by simp)]
  obtain ⟨h1, h2⟩ := polySub_spec hW hA.can.below hB.can.below
  exact ⟨_, rfl, DPoly.is_of rfl h1 (by rw [h2, hA.toP, hB.toP])⟩

theorem mul_is (h0 : 0 < p) (hW : p < W) {A B : DPoly} {F G} (hA : A.Is p F) (hB : B.Is p G) (lA : A.coeffs.length < W) (lB : B.coeffs.length < W) :
    ∃ r, mul A B = .ok r ∧ r.Is p (F * G) := by
  unfold mul
  rw [hA.modulus, hB.modulus, if_neg (by simp)]
  by_cases h : A.coeffs = [] ∨ B.coeffs = []
  · rw [if_pos h]
    refine ⟨_, rfl, DPoly.is_of rfl Can.nil ?_⟩
    rw [← hA.toP, ← hB.toP]
    rcases h with h | h <;> rw [h] <;> simp
  · rw [if_neg h]
    push Not at h
    dsimp only
    have l1 := List.length_pos_iff.2 h.1
    by_cases hn : max A.coeffs.length B.coeffs.length < 16
    · rw [if_pos hn]
      obtain ⟨c1, c2, _⟩ := classicalMul_spec h0 hW hA.can.below hB.can.below h.1 h.2 lA
      exact ⟨_, rfl, DPoly.is_of rfl (Can.strip c1) (by rw [toP_strip, c2, hA.toP, hB.toP])⟩
    · rw [if_neg hn]
      obtain ⟨n, en⟩ : ∃ n, n = max A.coeffs.length B.coeffs.length := ⟨_, rfl⟩
      rw [← en]
      obtain ⟨c1, c2, _⟩ := karMul_spec h0 hW (n + 1) n (pad n A.coeffs) (pad n B.coeffs) (by omega) (by omega) (by omega)
        (pad_length (by omega)) (pad_length (by omega)) (hA.can.below.pad h0 n) (hB.can.below.pad h0 n)
      exact ⟨_, rfl, DPoly.is_of rfl (Can.strip c1) (by rw [toP_strip, c2, toP_pad, toP_pad, hA.toP, hB.toP])⟩

theorem toP_map_mul (h0 : 0 < p) (hW : p < W) {k : Nat} (hk : k < p) : ∀ l : List Nat, Below p l →
    Below p (l.map fun a => nmodMul (precompute p) a k) ∧ toP p (l.map fun a => nmodMul (precompute p) a k) = C (k : ZMod p) * toP p l := by
  intro l
  induction l with
  | nil => intro _; exact ⟨Below.nil, by simp⟩
  | cons a l ih =>
    intro h
    rw [Below.cons] at h
    obtain ⟨i1, i2⟩ := ih h.2
    have e := nmodMul_spec h0 hW h.1 hk
    refine ⟨?_, ?_⟩
    · rw [List.map_cons, Below.cons]
      exact ⟨e.1, i1⟩
    · rw [List.map_cons, toP_cons, toP_cons, i2, e.2, map_mul]; ring

theorem scalarMul_is [hp : Fact p.Prime] (hW : p < W) {A : DPoly} {F} (hA : A.Is p F) {k : Nat} (hk : k < p) :
    (scalarMul A k).Is p (C (k : ZMod p) * F) := by
  unfold scalarMul
  by_cases h : k = 0
  · rw [if_pos h]
    exact DPoly.is_of hA.modulus Can.nil (by rw [h]; simp)
  · rw [if_neg h]
    by_cases h1 : k = 1
    · rw [if_pos h1, h1]; simpa using hA
    · rw [if_neg h1]
      obtain ⟨b1, b2⟩ := toP_map_mul hp.out.pos hW hk A.coeffs hA.can.below
      rw [hA.modulus]
      refine DPoly.is_of rfl ⟨b1, ?_⟩ (by rw [← hA.toP]; exact b2)
      intro hne
      dsimp only at hne ⊢
      have hA0 : A.coeffs ≠ [] := by simpa using hne
      rw [List.getLast_map]
      have hlast : A.coeffs.getLast hA0 < p := hA.below _ (List.getLast_mem hA0)
      obtain ⟨m1, m2⟩ := nmodMul_spec hp.out.pos hW hlast hk
      intro e
      rw [e] at m2
      have n1 := cast_ne_zero hlast (hA.trim hA0)
      have n2 := cast_ne_zero hk h
      exact mul_ne_zero n1 n2 (by simpa using m2.symm)

theorem divrem_eq (A B : DPoly) (hc : A.c = B.c) (hB : B.coeffs ≠ []) :
    divrem A B = .ok (⟨(polyDivRem A.c A.coeffs B.coeffs).1, A.c⟩, ⟨(polyDivRem A.c A.coeffs B.coeffs).2, A.c⟩) := by
  have := List.length_pos_iff.2 hB
  unfold divrem polyDivRem
  rw [if_neg (by rw [hc]; simp [hB])]
  by_cases h : A.coeffs.length < B.coeffs.length
  · rw [if_pos h, if_pos (show deg A < deg B by unfold deg; omega)]
  · rw [if_neg h, if_neg (show ¬ deg A < deg B by unfold deg; omega)]
    dsimp only
    unfold lead
    rw [if_neg hB]

theorem divrem_is [hp : Fact p.Prime] (hW : p < W) {A B : DPoly} {F G} (hA : A.Is p F) (hB : B.Is p G) (hG : G ≠ 0) (lA : A.coeffs.length < W) :
    ∃ q r Q R, divrem A B = .ok (q, r) ∧ q.Is p Q ∧ r.Is p R ∧ F = Q * G + R ∧ R.degree < G.degree := by
  have hB0 : B.coeffs ≠ [] := fun e => hG (by rw [← hB.toP, e]; rfl)
  rw [divrem_eq A B (hA.modulus.trans hB.modulus.symm) hB0, hA.modulus]
  obtain ⟨h1, h2, h3, h4⟩ := polyDivRem_spec hW hA.can hB.can hB0 lA
  refine ⟨_, _, _, _, rfl, DPoly.is_of rfl h1 rfl, DPoly.is_of rfl h2 rfl, by rw [← hA.toP, ← hB.toP, h3], ?_⟩
  have hd := hB.can.degree_eq hB0
  rw [hB.toP] at hd
  rw [hd]
  exact (h2.length_le_iff _).1 (by omega)

theorem gcd_is [hp : Fact p.Prime] (hW : p < W) {A B : DPoly} {F G} (hA : A.Is p F) (hB : B.Is p G) (lA : A.coeffs.length < W)
    (lB : B.coeffs.length < W) : ∃ D, (gcd A B).Is p D ∧ IsGcd D F G := by
  obtain ⟨ab, hab⟩ : ∃ ab, ab = if deg A < deg B then (B, A) else (A, B) := ⟨_, rfl⟩
  obtain ⟨U, V, hU, hV, lU, lV, hsym⟩ : ∃ U V, ab.1.Is p U ∧ ab.2.Is p V ∧ ab.1.coeffs.length < W ∧ ab.2.coeffs.length < W ∧
      ∀ D, IsGcd D U V → IsGcd D F G := by
    rw [hab]; split
    · exact ⟨G, F, hB, hA, lB, lA, fun D h => ⟨h.2.1, h.1, fun d h1 h2 => h.2.2 d h2 h1⟩⟩
    · exact ⟨F, G, hA, hB, lA, lB, fun D h => h⟩
  unfold gcd
  dsimp only
  rw [← hab]
  by_cases h0 : ab.2.coeffs = []
  · rw [if_pos h0]
    have : V = 0 := by rw [← hV.toP, h0]; rfl
    exact ⟨U, hU, hsym _ (by rw [this]; exact IsGcd.zero_right U)⟩
  · rw [if_neg h0]
    by_cases hlt : ab.2.coeffs.length < 340
    · rw [if_pos hlt]
      obtain ⟨g1, g2, _⟩ := gcdEuclid_spec hW (ab.2.coeffs.length + 1) _ _ hU.can hV.can lU lV (Nat.lt_succ_self _)
      rw [hU.modulus]
      exact ⟨_, DPoly.is_of rfl g1 rfl, hsym _ (by rw [hU.toP, hV.toP] at g2; exact g2)⟩
    · rw [if_neg hlt]
      obtain ⟨g1, g2, _⟩ := gcdHgcd_spec hW hU.can hV.can lU lV h0
      rw [hU.modulus]
      exact ⟨_, DPoly.is_of rfl g1 rfl, hsym _ (by rw [hU.toP, hV.toP] at g2; exact g2)⟩

/-! ### conversions -/

/-- SPECIFICATION.  The polynomial with the given terms `(degree, residue)`. -/
noncomputable def termsPoly (p : Nat) (t : List (Nat × Nat)) : (ZMod p)[X] := (t.map fun x => monomial x.1 (x.2 : ZMod p)).sum

/-- SPECIFICATION.  A well-formed sparse polynomial over `Zp`: strictly descending degrees, residues in `[1, p)`. -/
def SparseOK (p : Nat) (t : List (Nat × Nat)) : Prop := t.Pairwise (fun x y => x.1 > y.1) ∧ ∀ x ∈ t, 0 < x.2 ∧ x.2 < p

instance (p t) : Decidable (SparseOK p t) := inferInstanceAs (Decidable (_ ∧ _))

theorem foldl_set_getD (t : List (Nat × Nat)) : ∀ (l : List Nat), t.Pairwise (fun x y => x.1 > y.1) → (∀ x ∈ t, x.1 < l.length) →
    (t.foldl (fun l x => l.set x.1 x.2) l).length = l.length ∧
    ∀ i, (t.foldl (fun l x => l.set x.1 x.2) l).getD i 0 = ((t.find? fun x => x.1 == i).map Prod.snd).getD (l.getD i 0) := by
  induction t with
  | nil => intro l _ _; exact ⟨rfl, fun i => rfl⟩
  | cons x t ih =>
    intro l hp hl
    rw [List.pairwise_cons] at hp
    obtain ⟨i1, i2⟩ := ih (l.set x.1 x.2) hp.2 (fun y hy => by rw [List.length_set]; exact hl y (List.mem_cons_of_mem _ hy))
    refine ⟨by rw [List.foldl_cons, i1, List.length_set], fun i => ?_⟩
    rw [List.foldl_cons, i2, List.find?_cons]
    by_cases hx : x.1 = i
    · subst hx
      have hnone : t.find? (fun y => y.1 == x.1) = none := by
        rw [List.find?_eq_none]
        intro y hy
        have := hp.1 y hy
        simp; omega
      have hlt := hl x List.mem_cons_self
      rw [hnone, List.getD_eq_getElem _ _ (by rw [List.length_set]; exact hlt)]
      simp
    · have : (x.1 == i) = false := by simpa using hx
      rw [this]
      simp [List.getD_eq_getElem?_getD, List.getElem?_set, hx]

theorem termsPoly_coeff (t : List (Nat × Nat)) (h : t.Pairwise (fun x y => x.1 > y.1)) (i : Nat) :
    (termsPoly p t).coeff i = ((((t.find? fun x => x.1 == i).map Prod.snd).getD 0 : Nat) : ZMod p) := by
  induction t with
  | nil => simp [termsPoly]
  | cons x t ih =>
    rw [List.pairwise_cons] at h
    have e : termsPoly p (x :: t) = monomial x.1 (x.2 : ZMod p) + termsPoly p t := by simp [termsPoly]
    rw [e, coeff_add, ih h.2, coeff_monomial, List.find?_cons]
    by_cases hx : x.1 = i
    · subst hx
      have hnone : t.find? (fun y => y.1 == x.1) = none := by
        rw [List.find?_eq_none]
        intro y hy
        have := h.1 y hy
        simp; omega
      rw [hnone]; simp
    · have : (x.1 == i) = false := by simpa using hx
      rw [this, if_neg hx]; simp

theorem ofSparse_is {t : List (Nat × Nat)} (h : SparseOK p t) : (ofSparse t p).Is p (termsPoly p t) := by
  cases t with
  | nil => exact DPoly.is_of rfl Can.nil (by simp [ofSparse, termsPoly])
  | cons x t =>
    have hb : ∀ y ∈ x :: t, y.1 < (List.replicate (x.1 + 1) 0).length := by
      intro y hy
      rw [List.length_replicate]
      rcases List.mem_cons.1 hy with rfl | hy
      · omega
      · have := (List.pairwise_cons.1 h.1).1 y hy; omega
    obtain ⟨k1, k2⟩ := foldl_set_getD (x :: t) (List.replicate (x.1 + 1) 0) h.1 hb
    have hz : ∀ i, (List.replicate (x.1 + 1) 0).getD i 0 = 0 := by
      intro i
      simp only [List.getD_eq_getElem?_getD, List.getElem?_replicate]
      split <;> rfl
    have hv : ∀ i, ((ofSparse (x :: t) p).coeffs).getD i 0 = (((x :: t).find? fun y => y.1 == i).map Prod.snd).getD 0 := by
      intro i; have := k2 i; rw [hz i] at this; exact this
    have hlen : ((ofSparse (x :: t) p).coeffs).length = x.1 + 1 := k1.trans (List.length_replicate)
    refine ⟨rfl, ?_, ?_, fun i => by rw [hv, termsPoly_coeff _ h.1]⟩
    · intro a ha
      obtain ⟨i, hi, rfl⟩ := List.getElem_of_mem ha
      rw [← List.getD_eq_getElem _ 0 hi, hv]
      cases e : (x :: t).find? (fun y => y.1 == i) with
      | none => have := (h.2 x List.mem_cons_self); simp; omega
      | some y => exact (h.2 y (List.mem_of_find?_eq_some e)).2
    · intro hne
      rw [← getD_last hne, hv, hlen]
      simp only [Nat.add_sub_cancel, List.find?_cons, beq_self_eq_true]
      have := h.2 x List.mem_cons_self
      simp; omega

theorem toSparse_sparseOK {f : DPoly} {F} (hf : f.Is p F) : SparseOK p (toSparse f) := by
  unfold toSparse
  constructor
  · rw [List.pairwise_map]
    apply List.Pairwise.filter
    rw [List.pairwise_reverse]
    exact List.pairwise_lt_range
  · intro x hx
    rw [List.mem_map] at hx
    obtain ⟨i, hi, rfl⟩ := hx
    rw [List.mem_filter] at hi
    have h1 : f.coeffs.getD i 0 ≠ 0 := by simpa using hi.2
    have h2 : i < f.coeffs.length := by simpa using hi.1
    refine ⟨Nat.pos_of_ne_zero h1, ?_⟩
    dsimp only
    rw [List.getD_eq_getElem _ _ h2]
    exact hf.below _ (List.getElem_mem h2)

theorem toSparse_find (f : DPoly) (i : Nat) : (((toSparse f).find? fun x => x.1 == i).map Prod.snd).getD 0 = f.coeffs.getD i 0 := by
  cases e : (toSparse f).find? (fun x => x.1 == i) with
  | some y =>
    have h1 := List.mem_of_find?_eq_some e
    have h2 : y.1 = i := by have := List.find?_some e; simpa using this
    unfold toSparse at h1
    rw [List.mem_map] at h1
    obtain ⟨j, _, rfl⟩ := h1
    dsimp only at h2
    rw [← h2]; rfl
  | none =>
    by_contra hne
    have hne' : f.coeffs.getD i 0 ≠ 0 := fun h => hne (by rw [h]; rfl)
    have hi : i < f.coeffs.length := by
      by_contra h; exact hne' (List.getD_eq_default _ _ (by omega))
    rw [List.find?_eq_none] at e
    apply e (i, f.coeffs.getD i 0)
    · unfold toSparse
      rw [List.mem_map]
      exact ⟨i, List.mem_filter.2 ⟨by simpa using hi, by simpa using hne'⟩, rfl⟩
    · simp

theorem toSparse_is {f : DPoly} {F} (hf : f.Is p F) : termsPoly p (toSparse f) = F := by
  ext i
  rw [termsPoly_coeff _ (toSparse_sparseOK hf).1, toSparse_find, hf.coeff]

/-- well-formed sparse polynomials with the same value are equal term by term -/
theorem sparse_unique {t u : List (Nat × Nat)} (ht : SparseOK p t) (hu : SparseOK p u) (e : termsPoly p t = termsPoly p u) : t = u := by
  have hmem : ∀ {t : List (Nat × Nat)}, SparseOK p t → ∀ x : Nat × Nat, x ∈ t ↔ 0 < x.2 ∧ x.2 < p ∧ (x.2 : ZMod p) = (termsPoly p t).coeff x.1 := by
    intro t ht x
    rw [termsPoly_coeff _ ht.1]
    constructor
    · intro hx
      refine ⟨(ht.2 x hx).1, (ht.2 x hx).2, ?_⟩
      cases e : t.find? (fun y => y.1 == x.1) with
      | none => rw [List.find?_eq_none] at e; exact absurd (by simp) (e x hx)
      | some y =>
        have h1 := List.mem_of_find?_eq_some e
        have h2 : y.1 = x.1 := by have := List.find?_some e; simpa using this
        have : y = x := by
          by_contra hne
          have hp : t.Pairwise (fun a b => a.1 ≠ b.1) := ht.1.imp (fun h => by omega)
          haveI : Std.Symm (fun a b : Nat × Nat => a.1 ≠ b.1) := ⟨fun _ _ h => Ne.symm h⟩
          exact (hp.forall h1 hx hne) h2
        rw [this]; rfl
    · rintro ⟨h1, h2, h3⟩
      cases e : t.find? (fun y => y.1 == x.1) with
      | none =>
        rw [e] at h3
        exact absurd (by simpa using h3) (cast_ne_zero h2 (by omega))
      | some y =>
        have k1 := List.mem_of_find?_eq_some e
        have k2 : y.1 = x.1 := by have := List.find?_some e; simpa using this
        rw [e] at h3
        have hy := (ht.2 y k1).2
        have h3' : (x.2 : ZMod p) = (y.2 : ZMod p) := h3
        rw [ZMod.natCast_eq_natCast_iff', Nat.mod_eq_of_lt h2, Nat.mod_eq_of_lt hy] at h3'
        have : x = y := Prod.ext k2.symm h3'
        rw [this]; exact k1
  have hsub : ∀ x, x ∈ t ↔ x ∈ u := fun x => by rw [hmem ht, hmem hu, e]
  have hnd : ∀ {t : List (Nat × Nat)}, SparseOK p t → t.Nodup := fun ht => ht.1.imp (fun h e => by rw [e] at h; omega)
  have hperm : t.Perm u := (List.perm_ext_iff_of_nodup (hnd ht) (hnd hu)).2 hsub
  exact hperm.eq_of_pairwise (fun a b _ _ h1 h2 => by omega) ht.1 hu.1

/-! ### scratch space of the Karatsuba product -/

theorem karScratch_mono (fuel : Nat) : ∀ m n, m ≤ n → karScratch fuel m ≤ karScratch fuel n := by
  induction fuel with
  | zero => intro m n _; exact le_rfl
  | succ fuel ih =>
    intro m n h
    simp only [karScratch]
    by_cases hn : n < 16
    · rw [if_pos hn, if_pos (show m < 16 by omega)]
    · rw [if_neg hn]
      by_cases hm : m < 16
      · rw [if_pos hm]; exact Nat.zero_le _
      · rw [if_neg hm]
        have i1 := ih (m / 2) (n / 2) (by omega)
        have i2 := ih (m - m / 2) (n - n / 2) (by omega)
        omega

/-- the same number, following the longest recursive call only -/
def karScratchH : Nat → Nat → Nat
  | 0, _ => 0
  | fuel + 1, n => if n < 16 then 0 else (n - n / 2) + (n - n / 2) + (2 * (n / 2) - 1) + (2 * (n - n / 2) - 1) + karScratchH fuel (n - n / 2)

theorem karScratch_eq (fuel : Nat) : ∀ n, karScratch fuel n = karScratchH fuel n := by
  induction fuel with
  | zero => intro n; rfl
  | succ fuel ih =>
    intro n
    simp only [karScratch, karScratchH]
    rw [max_eq_right (karScratch_mono fuel (n / 2) (n - n / 2) (by omega)), ih]

theorem karScratch_le (j : Nat) : ∀ n fuel, 8 ≤ n → n ≤ 2 ^ (j + 3) → karScratch fuel n + 48 ≤ 6 * n + 2 * j := by
  induction j with
  | zero =>
    intro n fuel h1 h2
    cases fuel with
    | zero => simp only [karScratch]; omega
    | succ f => simp only [karScratch]; rw [if_pos (by omega)]; omega
  | succ j ih =>
    intro n fuel h1 h2
    cases fuel with
    | zero => simp only [karScratch]; omega
    | succ f =>
      simp only [karScratch]
      by_cases hn : n < 16
      · rw [if_pos hn]; omega
      · rw [if_neg hn]
        have hm := karScratch_mono f (n / 2) (n - n / 2) (by omega)
        have e : 2 ^ (j + 1 + 3) = 2 * 2 ^ (j + 3) := by ring
        have := ih (n - n / 2) f (by omega) (by omega)
        omega

end Dense
end CLPoly
