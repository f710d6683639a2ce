import Verif.Wang.LiftTaylor

/-!
# Hensel lifting in several variables: the algebra

`R` a field, `x1` the main variable.  `Im`: a polynomial with the image `v` at the point, of no larger degree in the main variable.
-/

namespace CLPoly
namespace Mtshl
open Mono Mgcd Lift Factor MvPolynomial

section ring
variable {R : Type} [CommRing R]

theorem sub1_C (x : Var) (a c : R) : sub1 x a (C c) = C c := by simp [sub1]
theorem sub1_X (x : Var) (a : R) (w : Var) : sub1 x a (X w) = if w = x then C a else X w := by simp [sub1]
theorem sub1_lin (x : Var) (a : R) : sub1 x a (X x - C a) = 0 := by rw [map_sub, sub1_C, sub1_X, if_pos rfl, sub_self]

/-- `f - f(x = a)` is a multiple of `x - a` -/
theorem lin_dvd_sub (x : Var) (a : R) (f : MvPolynomial Var R) : X x - C a ∣ f - sub1 x a f := by
  induction f using MvPolynomial.induction_on with
  | C c => rw [sub1_C, sub_self]; exact dvd_zero _
  | add f g hf hg => rw [map_add]; convert dvd_add hf hg using 1; ring
  | mul_X f w hf =>
    rw [map_mul]
    have : f * X w - sub1 x a f * sub1 x a (X w) = (f - sub1 x a f) * X w + sub1 x a f * (X w - sub1 x a (X w)) := by ring
    rw [this]
    refine dvd_add (hf.mul_right _) (Dvd.dvd.mul_left ?_ _)
    rw [sub1_X]
    by_cases h : w = x
    · rw [if_pos h, h]
    · rw [if_neg h, sub_self]; exact dvd_zero _

theorem lin_dvd_iff (x : Var) (a : R) (f : MvPolynomial Var R) : X x - C a ∣ f ↔ sub1 x a f = 0 := by
  constructor
  · rintro ⟨g, rfl⟩; rw [map_mul, sub1_lin, zero_mul]
  · intro h; have := lin_dvd_sub x a f; rwa [h, sub_zero] at this

theorem comb_map {A B : Type} [CommRing A] [CommRing B] (φ : A →+* B) : ∀ S F : List A, φ (comb S F) = comb (S.map φ) (F.map φ)
  | [], _ => by simp [comb]
  | _ :: _, [] => by simp [comb]
  | s :: S, f :: F => by simp only [List.map_cons, comb, map_add, map_mul, comb_map φ S F, map_list_prod]

/-- the error of a product, up to first order -/
theorem prod_diff {A : Type} [CommRing A] (l : A) {k : ℕ} (hk : 0 < k) : ∀ {F H D : List A}, List.Forall₂ (fun f (x : A × A) => x.1 - f = l ^ k * x.2) F (List.zip H D) → H.length = D.length →
    ∃ Q, H.prod - F.prod = l ^ k * (comb D H + l * Q)
  | _, [], [], h, _ => by
    simp only [List.zip_nil_right, List.forall₂_nil_right_iff] at h
    subst h; exact ⟨0, by simp [comb]⟩
  | _, [], _ :: _, _, h => by simp at h
  | _, _ :: _, [], _, h => by simp at h
  | _, h :: H, d :: D, hF, hl => by
    rw [List.zip_cons_cons, List.forall₂_cons_right_iff] at hF
    obtain ⟨f, F, hf, hF, rfl⟩ := hF
    obtain ⟨Q, hQ⟩ := prod_diff l hk hF (by simpa using hl)
    obtain ⟨m, rfl⟩ : ∃ m, k = m + 1 := ⟨k - 1, by omega⟩
    refine ⟨h * Q - l ^ m * d * (comb D H + l * Q), ?_⟩
    simp only [List.prod_cons, comb]
    simp only at hf
    have e1 : f = h - l ^ (m + 1) * d := by linear_combination -hf
    have e2 : F.prod = H.prod - l ^ (m + 1) * (comb D H + l * Q) := by linear_combination -hQ
    rw [e1, e2, pow_succ]
    ring

end ring

section field
variable {R : Type} [DecidableEq R] [Field R] {x1 : Var} {α : Var → R}

theorem lin_ne (x : Var) (a : R) : (X x - C a : MvPolynomial Var R) ≠ 0 := fun h => by
  have := congrArg (coeff (Finsupp.single x 1)) h
  rw [coeff_sub, coeff_X, coeff_C, coeff_zero, if_pos rfl, if_neg (fun e => by have := DFunLike.congr_fun e x; simp at this)] at this
  simp at this

theorem lin_degreeOf_self (x : Var) (a : R) : (X x - C a : MvPolynomial Var R).degreeOf x = 1 := by
  refine le_antisymm ((degreeOf_sub_le _ _ _).trans (by rw [degreeOf_X, if_pos rfl, degreeOf_C]; simp)) ?_
  have h : Finsupp.single x 1 ∈ (X x - C a : MvPolynomial Var R).support := by
    rw [mem_support_iff, coeff_sub, coeff_X, coeff_C, if_pos rfl, if_neg (fun e => by have := DFunLike.congr_fun e x; simp at this)]
    simp
  have := monomial_le_degreeOf x h
  simpa using this

theorem lin_degreeOf_ne {x w : Var} (h : w ≠ x) (a : R) : (X x - C a : MvPolynomial Var R).degreeOf w = 0 :=
  Nat.le_zero.1 ((degreeOf_sub_le _ _ _).trans (by rw [degreeOf_X, if_neg h, degreeOf_C]; simp))

/-- `(x - a)^m` divides no non-zero polynomial of degree below `m` in `x` -/
theorem pow_dvd_degree {x : Var} {a : R} {m : ℕ} {f : MvPolynomial Var R} (h : (X x - C a) ^ m ∣ f) (h0 : f ≠ 0) : m ≤ f.degreeOf x := by
  have := degreeOf_le_of_dvd (v := x) h h0
  rwa [degreeOf_pow_eq _ _ _ (lin_ne x a), lin_degreeOf_self, mul_one] at this

/-- image at the point -/
def Im (x1 : Var) (α : Var → R) (F : MvPolynomial Var R) (v : Polynomial R) : Prop := F.degreeOf x1 ≤ v.natDegree ∧ evR x1 α F = v

/-- of smaller degree in the main variable -/
def Sml (x1 : Var) (s : MvPolynomial Var R) (v : Polynomial R) : Prop := s.degreeOf x1 < v.natDegree

theorem Im.sub1 {x : Var} (hx : x ≠ x1) {a : R} (ha : a = α x) {F : MvPolynomial Var R} {v : Polynomial R} (h : Im x1 α F v) : Im x1 α (sub1 x a F) v :=
  ⟨(sub1_degreeOf _ _ _ _).trans h.1, by rw [evR_sub1 hx ha, h.2]⟩

theorem Sml.sub1 (x : Var) (a : R) {s : MvPolynomial Var R} {v : Polynomial R} (h : Sml x1 s v) : Sml x1 (sub1 x a s) v := (sub1_degreeOf _ _ _ _).trans_lt h

theorem forall₂_mem_left {A B : Type} {P : A → B → Prop} {l : List A} {m : List B} (h : List.Forall₂ P l m) {a : A} (ha : a ∈ l) : ∃ b ∈ m, P a b := by
  induction h with
  | nil => simp at ha
  | cons h _ ih =>
    rcases List.mem_cons.1 ha with rfl | ha
    · exact ⟨_, by simp, h⟩
    · obtain ⟨b, hb, hP⟩ := ih ha
      exact ⟨b, by simp [hb], hP⟩

/-- a solution of small degree of the homogeneous equation vanishes -/
theorem comb_zero {vs : List (Polynomial R)} (hc : Lift.Cop vs) (h0 : ∀ v ∈ vs, v ≠ 0) : ∀ (ys : List (Var × R)), (ys.map Prod.fst).Nodup → (∀ y ∈ ys, y.1 ≠ x1 ∧ y.2 = α y.1) → ∀ {S F : List (MvPolynomial Var R)},
    List.Forall₂ (Im x1 α) F vs → List.Forall₂ (Sml x1) S vs → (∀ s ∈ S, s.vars ⊆ insert x1 (keys ys)) → comb S F = 0 → ∀ s ∈ S, s = 0 := by
  intro ys
  induction ys with
  | nil =>
    intro _ _ S F hF hS hv e s hs
    have e1 := congrArg (evR x1 α) e
    rw [comb_map, map_zero] at e1
    have hFm : F.map (evR x1 α) = vs := by
      clear e e1 hS
      induction hF with
      | nil => rfl
      | cons h _ ih => rw [List.map_cons, h.2, ih (List.pairwise_cons.1 hc).2 fun v hv => h0 v (by simp [hv])]
    rw [hFm] at e1
    have hz : comb (vs.map fun _ => (0 : Polynomial R)) vs = 0 := by have := comb_map_mul (0 : Polynomial R) vs vs; simpa using this
    have key : S.map (evR x1 α) = vs.map fun _ => (0 : Polynomial R) := by
      refine comb_unique (F := vs) (by rw [List.length_map]; exact hS.length_eq) (by simp) hc h0 ?_ ?_ (e1.trans hz.symm)
      · intro z hz'
        have hS' : List.Forall₂ (fun p v => p.degree < v.degree) (S.map (evR x1 α)) vs := by
          rw [List.forall₂_map_left_iff]
          exact hS.imp fun s v h => Polynomial.degree_lt_degree ((evR_natDegree_le _ _ _).trans_lt h)
        exact (List.forall₂_iff_zip.1 hS').2 hz'
      · intro z hz'
        rw [List.zip_map_left, List.mem_map] at hz'
        obtain ⟨y, hy, rfl⟩ := hz'
        simp only [Prod.map, id]
        rw [Polynomial.degree_zero]
        exact bot_lt_iff_ne_bot.2 (by rw [Ne, Polynomial.degree_eq_bot]; exact h0 _ (List.of_mem_zip hy).2)
    have h1 : evR x1 α s = 0 := by
      have : evR x1 α s ∈ S.map (evR x1 α) := List.mem_map_of_mem hs
      rw [key, List.mem_map] at this
      obtain ⟨_, _, h⟩ := this
      exact h.symm
    have hvs : s.vars ⊆ {x1} := by simpa [keys] using hv s hs
    rw [evR_ret hvs] at h1
    rw [← emb_ret hvs, h1, map_zero]
  | cons y ys ih =>
    intro hn hα S F hF hS hv e
    rw [List.map_cons, List.nodup_cons] at hn
    obtain ⟨hyx, hya⟩ := hα y (by simp)
    -- induction on the degree in `y`
    have main : ∀ (n : ℕ) {S : List (MvPolynomial Var R)}, List.Forall₂ (Sml x1) S vs → (∀ s ∈ S, s.vars ⊆ insert x1 (keys (y :: ys))) → comb S F = 0 → (∀ s ∈ S, s = 0 ∨ s.degreeOf y.1 < n) → ∀ s ∈ S, s = 0 := by
      intro n
      induction n with
      | zero => intro S _ _ _ h s hs; exact (h s hs).resolve_right (by omega)
      | succ n ihn =>
        intro S hS hv e hd
        have e1 := congrArg (sub1 y.1 y.2) e
        rw [comb_map, map_zero] at e1
        have hz := ih hn.2 (fun z hz => hα z (by simp [hz])) (F := F.map (sub1 y.1 y.2)) (S := S.map (sub1 y.1 y.2))
          (by rw [List.forall₂_map_left_iff]; exact hF.imp fun _ _ h => h.sub1 hyx hya) (by rw [List.forall₂_map_left_iff]; exact hS.imp fun _ _ h => h.sub1 _ _)
          (by
            intro s hs
            obtain ⟨t, ht, rfl⟩ := List.mem_map.1 hs
            refine (sub1_vars _ _ _).trans fun w hw => ?_
            rw [Finset.mem_erase] at hw
            have := hv t ht hw.2
            rw [Finset.mem_insert] at this ⊢
            rcases this with h | h
            · exact Or.inl h
            · right
              simp only [keys, List.map_cons, List.toFinset_cons, Finset.mem_insert] at h ⊢
              exact h.resolve_left hw.1) e1
        have hdv : ∀ s ∈ S, X y.1 - C y.2 ∣ s := fun s hs => (lin_dvd_iff _ _ _).2 (hz _ (List.mem_map_of_mem hs))
        obtain ⟨S', rfl⟩ : ∃ S' : List (MvPolynomial Var R), S = S'.map (· * (X y.1 - C y.2)) := by
          clear hz e1 e hd hv hS
          induction S with
          | nil => exact ⟨[], rfl⟩
          | cons s S ihS =>
            obtain ⟨t, ht⟩ := hdv s (by simp)
            obtain ⟨S', rfl⟩ := ihS fun s hs => hdv s (by simp [hs])
            exact ⟨t :: S', by rw [List.map_cons, ht, mul_comm]⟩
        have e' : comb S' F = 0 := by
          rw [comb_map_mul] at e
          exact (mul_eq_zero.1 e).resolve_left (lin_ne _ _)
        have hmul : ∀ s : MvPolynomial Var R, s ≠ 0 → s * (X y.1 - C y.2) ≠ 0 := fun s hs => mul_ne_zero hs (lin_ne _ _)
        have := ihn (S := S') (by
            rw [List.forall₂_map_left_iff] at hS
            refine hS.imp fun s v h => ?_
            by_cases hs : s = 0
            · rw [Sml, hs, zero_mul, degreeOf_zero] at h; rwa [Sml, hs, degreeOf_zero]
            · exact (degreeOf_le_of_dvd (Dvd.intro _ rfl) (hmul s hs)).trans_lt h)
          (fun s hs => by
            by_cases h : s = 0
            · rw [h, vars_0]; exact Finset.empty_subset _
            · exact (vars_of_dvd (Dvd.intro _ rfl) (hmul s h)).trans (hv _ (List.mem_map_of_mem hs)))
          e' (fun s hs => by
            by_cases h : s = 0
            · exact Or.inl h
            · right
              have := (hd _ (List.mem_map_of_mem hs)).resolve_left (hmul s h)
              rw [degreeOf_mul_eq h (lin_ne _ _), lin_degreeOf_self] at this
              omega)
        intro s hs
        obtain ⟨t, ht, rfl⟩ := List.mem_map.1 hs
        rw [this t ht, zero_mul]
    refine main ((S.map fun s => s.degreeOf y.1).sum + 1) hS hv e fun s hs => Or.inr ?_
    have := List.single_le_sum (l := S.map fun s => s.degreeOf y.1) (by simp) _ (List.mem_map_of_mem hs)
    omega

end field

end Mtshl
end CLPoly
