import Verif.Lift.Defs
import Verif.Upoly.Ext
import Mathlib.RingTheory.Polynomial.Basic

/-! # The diophantine equation `Σ σᵢ ∏_{l≠i} Fₗ = c` in one variable -/

namespace CLPoly
namespace Lift
open Upoly Polynomial
open Dense (IsGcd)

section alg
variable {A : Type*} [CommRing A]

/-- `Σ sᵢ ∏_{l≠i} Fₗ` -/
def comb : List A → List A → A
  | s :: S, f :: F => s * F.prod + f * comb S F
  | _, _ => 0

theorem comb_snoc : ∀ {S F : List A} (_ : S.length = F.length) (a f : A), comb (S ++ [a]) (F ++ [f]) = f * comb S F + a * F.prod
  | [], [], _, a, f => by simp [comb]
  | [], _ :: _, h, _, _ => by simp at h
  | _ :: _, [], h, _, _ => by simp at h
  | s :: S, g :: F, h, a, f => by
    have := comb_snoc (S := S) (F := F) (by simpa using h) a f
    simp only [List.cons_append, comb, this, List.prod_append, List.prod_cons, List.prod_nil, mul_one]
    ring

theorem comb_map_mul (b : A) : ∀ (S F : List A), comb (S.map (· * b)) F = b * comb S F
  | [], F => by simp [comb]
  | _ :: _, [] => by simp [comb]
  | s :: S, f :: F => by simp only [List.map_cons, comb, comb_map_mul b S F]; ring

/-- the sum, written out -/
theorem comb_eq_sum : ∀ {S F : List A} (_ : S.length = F.length), comb S F = ∑ i ∈ Finset.range F.length, S.getD i 0 * (F.eraseIdx i).prod
  | [], [], _ => by simp [comb]
  | [], _ :: _, h => by simp at h
  | _ :: _, [], h => by simp at h
  | s :: S, f :: F, h => by
    rw [List.length_cons, Finset.sum_range_succ']
    simp only [comb, List.getD_cons_succ, List.eraseIdx_cons_succ, List.prod_cons, List.getD_cons_zero, List.eraseIdx_cons_zero]
    rw [comb_eq_sum (S := S) (F := F) (by simpa using h), Finset.mul_sum, add_comm]
    congr 1
    exact Finset.sum_congr rfl fun i _ => by ring

/-- changing every `sᵢ` by a multiple of `Fᵢ` changes the sum by a multiple of the product -/
theorem comb_mod {S S' F : List A} (h1 : List.Forall₂ (fun s (x : A × A) => x.2 ∣ x.1 - s) S' (List.zip S F)) (h2 : S.length = F.length) : F.prod ∣ comb S F - comb S' F := by
  induction F generalizing S S' with
  | nil =>
    have : S = [] := by simpa using h2
    subst this
    simp only [List.zip_nil_right, List.forall₂_nil_right_iff] at h1
    subst h1; simp [comb]
  | cons f F ih =>
    match S, h2 with
    | s :: S, h2 =>
      rw [List.zip_cons_cons, List.forall₂_cons_right_iff] at h1
      obtain ⟨s', S', hd, ht, rfl⟩ := h1
      obtain ⟨q, hq⟩ := hd
      obtain ⟨q', hq'⟩ := ih ht (by simpa using h2)
      refine ⟨q + q', ?_⟩
      simp only [comb, List.prod_cons]
      simp only at hq
      linear_combination F.prod * hq + f * hq'

end alg

section field
variable {R : Type*} [Field R]

/-- pairwise coprime -/
def Cop (F : List R[X]) : Prop := F.Pairwise IsCoprime

theorem isCoprime_prod_iff {g : R[X]} : ∀ {F : List R[X]}, IsCoprime g F.prod ↔ ∀ f ∈ F, IsCoprime g f
  | [] => by simp [isCoprime_one_right]
  | f :: F => by rw [List.prod_cons, IsCoprime.mul_right_iff, isCoprime_prod_iff]; simp

/-- the sum has small degree -/
theorem comb_degree : ∀ {S F : List R[X]} (_ : S.length = F.length) (_ : ∀ f ∈ F, f ≠ 0) (_ : ∀ x ∈ List.zip S F, x.1.degree < x.2.degree), (comb S F).degree < F.prod.degree
  | [], [], _, _, _ => by simp [comb]
  | [], _ :: _, h, _, _ => by simp at h
  | _ :: _, [], h, _, _ => by simp at h
  | s :: S, f :: F, h, h0, hd => by
    have ih := comb_degree (S := S) (F := F) (by simpa using h) (fun g hg => h0 g (List.mem_cons_of_mem _ hg)) fun x hx => hd x (by rw [List.zip_cons_cons]; exact List.mem_cons_of_mem _ hx)
    have hs := hd (s, f) (by simp)
    have hp : F.prod ≠ 0 := List.prod_ne_zero fun hm => h0 0 (List.mem_cons_of_mem _ hm) rfl
    have hf := h0 f (by simp)
    simp only [comb, List.prod_cons]
    refine (degree_add_le _ _).trans_lt (max_lt ?_ ?_)
    · rw [degree_mul, degree_mul]
      have : F.prod.degree ≠ ⊥ := by rwa [Ne, degree_eq_bot]
      exact (WithBot.add_lt_add_iff_right this).2 hs
    · rw [degree_mul, degree_mul]
      have : f.degree ≠ ⊥ := by rwa [Ne, degree_eq_bot]
      exact (WithBot.add_lt_add_iff_left this).2 ih

/-- a solution of small degree is unique -/
theorem comb_unique : ∀ {S S' F : List R[X]} (_ : S.length = F.length) (_ : S'.length = F.length) (_ : Cop F) (_ : ∀ f ∈ F, f ≠ 0) (_ : ∀ x ∈ List.zip S F, x.1.degree < x.2.degree)
    (_ : ∀ x ∈ List.zip S' F, x.1.degree < x.2.degree), comb S F = comb S' F → S = S'
  | [], [], _, _, _, _, _, _, _, _ => rfl
  | [], _ :: _, F, h, h', _, _, _, _, _ => by simp at h h'; omega
  | _ :: _, [], F, h, h', _, _, _, _, _ => by simp at h h'; omega
  | s :: S, s' :: S', [], h, _, _, _, _, _, _ => by simp at h
  | s :: S, s' :: S', f :: F, h, h', hc, h0, hd, hd', e => by
    simp only [comb] at e
    have hF := List.pairwise_cons.1 hc
    have hcop : IsCoprime f F.prod := isCoprime_prod_iff.2 hF.1
    have hs := hd (s, f) (by simp)
    have hs' := hd' (s', f) (by simp)
    have hdvd : f ∣ s - s' := by
      refine hcop.dvd_of_dvd_mul_right ⟨comb S' F - comb S F, ?_⟩
      linear_combination e
    have hf := h0 f (by simp)
    have h1 : s = s' := by
      by_contra hne
      have := degree_le_of_dvd hdvd (sub_ne_zero.2 hne)
      exact absurd (this.trans_lt ((degree_sub_le _ _).trans_lt (max_lt hs hs'))) (lt_irrefl _)
    subst h1
    have e' : comb S F = comb S' F := mul_left_cancel₀ hf (add_left_cancel e)
    rw [comb_unique (S := S) (S' := S') (F := F) (by simpa using h) (by simpa using h') hF.2 (fun g hg => h0 g (List.mem_cons_of_mem _ hg))
      (fun x hx => hd x (by rw [List.zip_cons_cons]; exact List.mem_cons_of_mem _ hx)) (fun x hx => hd' x (by rw [List.zip_cons_cons]; exact List.mem_cons_of_mem _ hx)) e']

end field

section model
variable {R : Type*} [DecidableEq R] [Field R]

/-- lists of polynomials -/
local notation "Iss" => List.Forall₂ Is

theorem mdpLoop_spec : ∀ {fs : List (UPoly R)} {Fs : List R[X]} {g : UPoly R} {G : R[X]} {s : List (UPoly R)} {S Fd : List R[X]}, Iss fs Fs → (∀ F ∈ Fs, F ≠ 0) → Is g G → G ≠ 0 → Iss s S →
    S.length = Fd.length → comb S Fd = 1 → G = Fd.prod →
    ((∀ F ∈ Fs, IsCoprime G F) ∧ Cop Fs → ∃ o O, mdpLoop g s fs = some (some o) ∧ Iss o O ∧ O.length = (Fd ++ Fs).length ∧ comb O (Fd ++ Fs) = 1) ∧
    (¬((∀ F ∈ Fs, IsCoprime G F) ∧ Cop Fs) → mdpLoop g s fs = some none) := by
  intro fs
  induction fs with
  | nil =>
    intro Fs g G s S Fd hfs _ _ _ hs hl hc _
    rw [List.forall₂_nil_left_iff] at hfs
    subst hfs
    exact ⟨fun _ => ⟨s, S, rfl, hs, by simpa using hl, by simpa using hc⟩, fun h => absurd ⟨by simp, List.Pairwise.nil⟩ h⟩
  | cons f fs ih =>
    intro Fs g G s S Fd hfs h0 hg g0 hs hl hc hG
    rw [List.forall₂_cons_left_iff] at hfs
    obtain ⟨F, Fs, hf, hfs, rfl⟩ := hfs
    have f0 := h0 F (by simp)
    obtain ⟨d, a, b, D, A, B, e1, hd, ha, hb, hm, hgcd, hbez⟩ := extGcd_spec hg hf g0 f0
    rw [mdpLoop, e1]
    simp only [Option.bind_some, is_deg hd]
    by_cases hdeg : D.natDegree > 0
    · rw [if_pos hdeg]
      refine ⟨fun h => ?_, fun _ => rfl⟩
      have hu := (h.1 F (by simp)).isUnit_of_dvd' hgcd.1 hgcd.2.1
      exact absurd (natDegree_eq_zero_of_isUnit hu) (by omega)
    · rw [if_neg hdeg]
      have hD : D = 1 := hm.natDegree_eq_zero.1 (by omega)
      rw [hD] at hbez
      have hcop : IsCoprime G F := ⟨A, B, hbez⟩
      have key := ih (Fs := Fs) (g := Upoly.norm (mul g f)) (G := G * F) (s := s.map (fun t => Upoly.norm (mul t b)) ++ [a]) (S := S.map (· * B) ++ [A]) (Fd := Fd ++ [F]) hfs
        (fun F hF => h0 F (List.mem_cons_of_mem _ hF)) (mul_is hg hf).norm (mul_ne_zero g0 f0)
        (List.rel_append (List.rel_map (fun {x y} hxy => (mul_is hxy hb).norm) hs) (List.Forall₂.cons ha .nil))
        (by simpa using hl) (by rw [comb_snoc (by simpa using hl), comb_map_mul, hc, ← hG]; linear_combination hbez) (by rw [hG]; simp)
      rw [List.append_assoc, List.singleton_append] at key
      have hiff : ((∀ F' ∈ Fs, IsCoprime (G * F) F') ∧ Cop Fs) ↔ ((∀ F' ∈ F :: Fs, IsCoprime G F') ∧ Cop (F :: Fs)) := by
        unfold Cop
        rw [List.pairwise_cons, List.forall_mem_cons]
        simp only [IsCoprime.mul_left_iff]
        constructor
        · rintro ⟨h1, h2⟩
          exact ⟨⟨hcop, fun x hx => (h1 x hx).1⟩, fun x hx => (h1 x hx).2, h2⟩
        · rintro ⟨⟨h1, h2⟩, h3, h4⟩
          exact ⟨fun x hx => ⟨h2 x hx, h3 x hx⟩, h4⟩
      rw [hiff] at key
      exact key

theorem mdpRem_spec {c s f : UPoly R} {C S F : R[X]} (hc : Is c C) (hs : Is s S) (hf : Is f F) (f0 : F ≠ 0) : ∃ r P, mdpRem c s f = some r ∧ Is r P ∧ F ∣ S * C - P ∧ P.degree < F.degree := by
  have hsc := (mul_is hs hc).norm
  unfold mdpRem
  by_cases h : Upoly.norm (mul s c) = []
  · rw [if_pos h]
    have h1 := (is_nil_iff hsc).1 h
    exact ⟨[], 0, rfl, nil_is, by rw [h1]; simp, by rw [degree_zero]; exact bot_lt_iff_ne_bot.2 (by rwa [Ne, degree_eq_bot])⟩
  · rw [if_neg h]
    obtain ⟨q, r, d1, d2, d3⟩ := divRem_is hsc hf f0
    rw [d1]
    exact ⟨r, _, rfl, d3, dvd_sub_mod' _ _, EuclideanDomain.mod_lt _ f0⟩

theorem mdpRems_spec {c : UPoly R} {C : R[X]} (hc : Is c C) : ∀ {s : List (UPoly R)} {S : List R[X]} {f : List (UPoly R)} {F : List R[X]}, Iss s S → Iss f F → S.length = F.length → (∀ G ∈ F, G ≠ 0) →
    ∃ r P, (List.zipWith (mdpRem c) s f).mapM id = some r ∧ Iss r P ∧ P.length = F.length ∧ List.Forall₂ (fun s (x : R[X] × R[X]) => x.2 ∣ x.1 - s) P (List.zip (S.map (· * C)) F) ∧
      ∀ x ∈ List.zip P F, x.1.degree < x.2.degree := by
  intro s
  induction s with
  | nil =>
    intro S f F hs hf hl _
    rw [List.forall₂_nil_left_iff] at hs
    subst hs
    have : F = [] := by simpa using hl.symm
    subst this
    exact ⟨[], [], rfl, .nil, rfl, by simp, by simp⟩
  | cons s0 s ih =>
    intro S f F hs hf hl h0
    rw [List.forall₂_cons_left_iff] at hs
    obtain ⟨S0, S, hs0, hs, rfl⟩ := hs
    match f, F, hf, hl with
    | [], _, hf, hl => rw [List.forall₂_nil_left_iff] at hf; subst hf; simp at hl
    | f0 :: f, F0 :: F, hf, hl =>
      rw [List.forall₂_cons] at hf
      obtain ⟨r0, P0, e0, hr0, hd0, hdeg0⟩ := mdpRem_spec hc hs0 hf.1 (h0 F0 (by simp))
      obtain ⟨r, P, e, hr, hPl, hd, hdeg⟩ := ih hs hf.2 (by simpa using hl) fun G hG => h0 G (List.mem_cons_of_mem _ hG)
      refine ⟨r0 :: r, P0 :: P, ?_, .cons hr0 hr, by simpa using hPl, ?_, ?_⟩
      · rw [List.zipWith_cons_cons, List.mapM_cons, e]
        simp [e0]
      · rw [List.map_cons, List.zip_cons_cons]
        exact .cons hd0 hd
      · intro x hx
        rw [List.zip_cons_cons] at hx
        rcases List.mem_cons.1 hx with rfl | hx
        · exact hdeg0
        · exact hdeg x hx

/-- `__mtshl_zp_univar_mdp` for at least two non-zero polynomials: if they are pairwise coprime a solution of small degree modulo their product, otherwise (and `c ≠ 0`) `false` -/
theorem univarMdp_spec {f : List (UPoly R)} {F : List R[X]} {c : UPoly R} {C : R[X]} (hf : Iss f F) (h2 : 2 ≤ F.length) (h0 : ∀ G ∈ F, G ≠ 0) (hc : Is c C) :
    (Cop F ∨ C = 0 → ∃ r P, univarMdp f c = some (some r) ∧ Iss r P ∧ P.length = F.length ∧ (∀ x ∈ List.zip P F, x.1.degree < x.2.degree) ∧ F.prod ∣ C - comb P F ∧
      (C.degree < F.prod.degree → comb P F = C)) ∧
    (¬ Cop F → C ≠ 0 → univarMdp f c = some none) := by
  match f, F, hf, h2 with
  | [], _, hf, h2 => rw [List.forall₂_nil_left_iff] at hf; subst hf; simp at h2
  | f0 :: fs, F0 :: Fs, hf, h2 =>
    rw [List.forall₂_cons] at hf
    have hne : ¬ (fs = [] ∨ f0 = []) := by
      rintro (h | h)
      · subst h
        have := hf.2
        rw [List.forall₂_nil_left_iff] at this
        subst this
        simp at h2
      · exact h0 F0 (by simp) ((is_nil_iff hf.1).1 h)
    unfold univarMdp
    simp only [if_neg hne]
    have hloop := mdpLoop_spec (R := R) hf.2 (fun F hF => h0 F (List.mem_cons_of_mem _ hF)) hf.1 (h0 F0 (by simp)) (s := [[(0, 1)]]) (S := [1]) (Fd := [F0]) (.cons one_is .nil) rfl
      (by simp [comb]) (by simp)
    have hiff : ((∀ F ∈ Fs, IsCoprime F0 F) ∧ Cop Fs) ↔ Cop (F0 :: Fs) := List.pairwise_cons.symm
    rw [hiff] at hloop
    by_cases hc0 : c = []
    · rw [if_pos hc0]
      have hC := (is_nil_iff hc).1 hc0
      refine ⟨fun _ => ⟨_, (F0 :: Fs).map fun _ => 0, rfl, ?_, by simp, ?_, ?_, ?_⟩, fun _ h => absurd hC h⟩
      · exact List.rel_map (fun {_ _} _ => nil_is) (List.Forall₂.cons hf.1 hf.2)
      · intro x hx
        rw [List.zip_map_left, List.mem_map] at hx
        obtain ⟨y, hy, rfl⟩ := hx
        have := (List.of_mem_zip hy).2
        exact degree_zero (R := R) ▸ bot_lt_iff_ne_bot.2 (by rw [Ne, degree_eq_bot]; exact h0 _ this)
      all_goals
        have : comb ((F0 :: Fs).map fun _ => (0 : R[X])) (F0 :: Fs) = 0 := by
          have := comb_map_mul (0 : R[X]) (F0 :: Fs) (F0 :: Fs)
          simpa using this
        rw [this, hC]
        simp
    · rw [if_neg hc0]
      have hC : C ≠ 0 := fun h => hc0 ((is_nil_iff hc).2 h)
      refine ⟨fun h => ?_, fun h _ => by rw [hloop.2 h]; rfl⟩
      have hcop := h.resolve_right hC
      obtain ⟨o, O, e, ho, hl, hco⟩ := hloop.1 hcop
      rw [e]
      rw [List.singleton_append] at hl hco
      obtain ⟨r, P, e', hr, hPl, hd, hdeg⟩ := mdpRems_spec hc ho (List.Forall₂.cons hf.1 hf.2) hl h0
      have hmod : (F0 :: Fs).prod ∣ C - comb P (F0 :: Fs) := by
        have := comb_mod hd (by simpa using hl)
        rwa [comb_map_mul, hco, mul_one] at this
      refine ⟨r, P, by simp only [Option.bind_some, e', Option.map_some], hr, hPl, hdeg, hmod, fun hCd => ?_⟩
      by_contra hne
      have := degree_le_of_dvd hmod (sub_ne_zero.2 (Ne.symm hne))
      exact absurd (this.trans_lt ((degree_sub_le _ _).trans_lt (max_lt hCd (comb_degree hPl h0 hdeg)))) (lt_irrefl _)

end model

end Lift
end CLPoly
