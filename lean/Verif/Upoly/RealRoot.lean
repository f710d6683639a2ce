import Verif.Upoly.RealRootVar
import Mathlib.Data.Nat.Size

/-!
# Real root isolation: correctness of the bisection
-/

namespace CLPoly
namespace Upoly
open Polynomial

/-- the closed interval `[p.1, p.2]` isolates one real root of `F`: it is the root, or an open interval of width below 1 with exactly one root
and with endpoints that are no roots -/
def IsoAt (F : ℤ[X]) (p : ℚ × ℚ) : Prop :=
  (p.1 = p.2 ∧ aeval (p.1 : ℝ) F = 0) ∨
    (p.1 < p.2 ∧ p.2 - p.1 < 1 ∧ aeval (p.1 : ℝ) F ≠ 0 ∧ aeval (p.2 : ℝ) F ≠ 0 ∧ ∃! x : ℝ, (p.1 : ℝ) < x ∧ x < p.2 ∧ aeval x F = 0)

theorem IsoAt.exists_unique {F : ℤ[X]} {p : ℚ × ℚ} (h : IsoAt F p) : ∃! x : ℝ, (p.1 : ℝ) ≤ x ∧ x ≤ p.2 ∧ aeval x F = 0 := by
  rcases h with ⟨h1, h2⟩ | ⟨_, _, h3, h4, x, hx, hu⟩
  · refine ⟨p.1, ⟨le_rfl, by rw [h1], h2⟩, ?_⟩
    rintro y ⟨hy1, hy2, _⟩
    rw [← h1] at hy2
    exact le_antisymm hy2 hy1
  · refine ⟨x, ⟨hx.1.le, hx.2.1.le, hx.2.2⟩, ?_⟩
    rintro y ⟨hy1, hy2, hy3⟩
    refine hu y ⟨lt_of_le_of_ne hy1 ?_, lt_of_le_of_ne hy2 ?_, hy3⟩
    · rintro rfl; exact h3 hy3
    · rintro rfl; exact h4 hy3

/-- `g` on the unit interval is `F` on `(B, E)` -/
structure Loc (F : ℤ[X]) (g : UPoly ℤ) (B E : ℚ) : Prop where
  canon : Canon comp g
  lt : B < E
  sub : Sub F (B : ℝ) ((E : ℝ) - B) (toPoly g)
  ne : F ≠ 0

section
variable {F : ℤ[X]} {g : UPoly ℤ} {B E : ℚ}

theorem Loc.ltR (h : Loc F g B E) : (0 : ℝ) < (E : ℝ) - B := by
  have : (B : ℝ) < E := by exact_mod_cast h.lt
  linarith

theorem code_vars (h : Canon comp g) : coeffSignChanges (oneToInf g) = vars (toPoly g) :=
  coeffSignChanges_is (oneToInf_is (is_of_canon h))

theorem deg_eq (h : Canon comp g) : deg g = (toPoly g).natDegree := is_deg (is_of_canon h)

theorem Loc.left (h : Loc F g B E) : Loc F (leftHalf g) B ((B + E) / 2) := by
  refine ⟨leftHalf_canon h.canon, by linarith [h.lt], ?_, h.ne⟩
  have := h.sub.left (deg g) (fun x => leftHalf_eval h.canon x)
  convert this using 1
  push_cast; ring

theorem Loc.right (h : Loc F g B E) : Loc F (rightHalf g) ((B + E) / 2) E := by
  refine ⟨(rightHalf_is h.canon).1, by linarith [h.lt], ?_, h.ne⟩
  have := h.sub.right (deg g) (fun x => (rightHalf_is h.canon).2 x)
  convert this using 1
  · push_cast; ring
  · push_cast; ring

theorem Loc.vars_left (h : Loc F g B E) (hv : vars (toPoly g) ≤ 1) : vars (toPoly (leftHalf g)) ≤ 1 :=
  Upoly.vars_left (fun x => by rw [← deg_eq h.canon]; exact leftHalf_eval h.canon x) hv

theorem Loc.vars_right (h : Loc F g B E) (hv : vars (toPoly g) ≤ 1) : vars (toPoly (rightHalf g)) ≤ 1 :=
  Upoly.vars_right (fun x => by rw [← deg_eq h.canon]; exact (rightHalf_is h.canon).2 x) hv

theorem Loc.ne_zero (h : Loc F g B E) : toPoly g ≠ 0 := h.sub.ne_zero h.ltR.ne' h.ne

/-- the point of the unit interval for a point of `(B, E)` -/
theorem Loc.root_iff (h : Loc F g B E) (x : ℝ) : aeval ((x - B) / ((E : ℝ) - B)) (toPoly g) = 0 ↔ aeval x F = 0 := by
  rw [h.sub.root]
  have := h.ltR.ne'
  rw [show (B : ℝ) + ((E : ℝ) - B) * ((x - B) / ((E : ℝ) - B)) = x by field_simp; ring]

theorem Loc.unit (h : Loc F g B E) {x : ℝ} (h1 : (B : ℝ) < x) (h2 : x < E) : 0 < (x - B) / ((E : ℝ) - B) ∧ (x - B) / ((E : ℝ) - B) < 1 := by
  have := h.ltR
  refine ⟨div_pos (by linarith) this, ?_⟩
  rw [div_lt_one this]; linarith

theorem Loc.no_root (h : Loc F g B E) (hv : vars (toPoly g) = 0) {x : ℝ} (h1 : (B : ℝ) < x) (h2 : x < E) : aeval x F ≠ 0 := by
  rw [Ne, ← h.root_iff]
  exact vars_zero h.ne_zero hv (h.unit h1 h2).1 (h.unit h1 h2).2

theorem Loc.unique (h : Loc F g B E) (hv : vars (toPoly g) ≤ 1) {x y : ℝ} (h1 : (B : ℝ) < x) (h2 : x < E) (h3 : (B : ℝ) < y) (h4 : y < E)
    (hx : aeval x F = 0) (hy : aeval y F = 0) : x = y := by
  rw [← h.root_iff] at hx hy
  have := vars_le_one_unique h.ne_zero hv (h.unit h1 h2).1 (h.unit h1 h2).2 (h.unit h3 h4).1 (h.unit h3 h4).2 hx hy
  have h5 := h.ltR.ne'
  field_simp at this
  linarith

theorem Loc.exists_root (h : Loc F g B E) (hv : vars (toPoly g) = 1) : ∃ x : ℝ, (B : ℝ) < x ∧ x < E ∧ aeval x F = 0 := by
  obtain ⟨t, h0, h1, ht⟩ := vars_one hv
  have := h.ltR
  refine ⟨B + ((E : ℝ) - B) * t, by nlinarith, by nlinarith, (h.sub.root t).1 ht⟩

theorem Loc.vars_pos (h : Loc F g B E) {x : ℝ} (h1 : (B : ℝ) < x) (h2 : x < E) (hx : aeval x F = 0) : vars (toPoly g) ≠ 0 :=
  fun hv => h.no_root hv h1 h2 hx

theorem Loc.mid_iff (h : Loc F g B E) : assignQ g (1 / 2) = 0 ↔ aeval ((((B + E) / 2 : ℚ)) : ℝ) F = 0 := by
  rw [assignQ_zero_iff, h.sub.root]
  rw [show (B : ℝ) + ((E : ℝ) - B) * ((1 / 2 : ℚ) : ℝ) = (((B + E) / 2 : ℚ) : ℝ) by push_cast; ring]

/-! ### `uspensky_shrink` -/

theorem shrink_spec : ∀ (fuel : Nat) {g : UPoly ℤ} {B E : ℚ} {lb rb : Bool} {b : Bool} {B' E' : ℚ}, Loc F g B E → vars (toPoly g) ≤ 1 →
    (lb = true → aeval (B : ℝ) F ≠ 0) → (rb = true → aeval (E : ℝ) F ≠ 0) →
    shrink fuel g B E lb rb = some (b, B', E') →
    (vars (toPoly g) = 0 ∧ b = false ∧ B' = B ∧ E' = E) ∨
      (vars (toPoly g) = 1 ∧ b = true ∧ B ≤ B' ∧ E' ≤ E ∧ (lb = false → B < B') ∧ (rb = false → E' < E) ∧ IsoAt F (B', E')) := by
  intro fuel
  induction fuel with
  | zero => intro g B E lb rb b B' E' _ _ _ _ h; simp [shrink] at h
  | succ n ih =>
    intro g B E lb rb b B' E' hl hv hlb hrb h
    have hBE := hl.lt
    have e := code_vars hl.canon
    have emid : (E + B) / 2 = (B + E) / 2 := by ring
    unfold shrink at h
    rw [e, emid] at h
    by_cases h0 : vars (toPoly g) = 0
    · rw [if_pos h0] at h
      simp only [Option.some.injEq, Prod.mk.injEq] at h
      exact Or.inl ⟨h0, h.1.symm, h.2.1.symm, h.2.2.symm⟩
    rw [if_neg h0] at h
    have h1 : vars (toPoly g) = 1 := by omega
    right
    refine ⟨h1, ?_⟩
    obtain ⟨r, hr1, hr2, hr⟩ := hl.exists_root h1
    by_cases hsm : E - B < 1 ∧ (lb = true ∧ rb = true)
    · rw [if_pos hsm] at h
      simp only [Option.some.injEq, Prod.mk.injEq] at h
      obtain ⟨rfl, rfl, rfl⟩ := h
      obtain ⟨hw, hlb', hrb'⟩ := hsm
      refine ⟨rfl, le_rfl, le_rfl, by simp [hlb'], by simp [hrb'], Or.inr ⟨hBE, hw, hlb hlb', hrb hrb', r, ⟨hr1, hr2, hr⟩, ?_⟩⟩
      rintro y ⟨hy1, hy2, hy⟩
      exact hl.unique hv hy1 hy2 hr1 hr2 hy hr
    rw [if_neg hsm] at h
    by_cases hm : assignQ g (1 / 2) = 0
    · rw [if_pos hm] at h
      simp only [Option.some.injEq, Prod.mk.injEq] at h
      obtain ⟨rfl, rfl, rfl⟩ := h
      refine ⟨rfl, by linarith, by linarith, fun _ => by linarith, fun _ => by linarith, Or.inl ⟨rfl, hl.mid_iff.1 hm⟩⟩
    rw [if_neg hm] at h
    rw [hl.mid_iff] at hm
    cases hleft : shrink n (leftHalf g) B ((B + E) / 2) lb true with
    | none => rw [hleft] at h; simp at h
    | some x =>
      obtain ⟨b1, B1, m1⟩ := x
      rw [hleft] at h
      have hsl := ih hl.left (hl.vars_left hv) hlb (fun _ => hm) hleft
      cases b1 with
      | true =>
        simp only [Option.some.injEq, Prod.mk.injEq] at h
        obtain ⟨rfl, rfl, rfl⟩ := h
        rcases hsl with ⟨_, hb, _⟩ | ⟨_, _, h2, h3, h4, _, h6⟩
        · exact absurd hb (by simp)
        · exact ⟨rfl, h2, by linarith, h4, fun _ => by linarith, h6⟩
      | false =>
        simp only at h
        rcases hsl with ⟨hv0, _, rfl, rfl⟩ | ⟨_, hb, _⟩
        · cases hright : shrink n (rightHalf g) ((B1 + E) / 2) E true rb with
          | none => rw [hright] at h; simp at h
          | some y =>
            obtain ⟨b2, B2, E2⟩ := y
            rw [hright] at h
            simp only [Option.some.injEq, Prod.mk.injEq] at h
            obtain ⟨rfl, rfl, rfl⟩ := h
            have hsr := ih hl.right (hl.vars_right hv) (fun _ => hm) hrb hright
            rcases hsr with ⟨hv1, _⟩ | ⟨_, _, h2, h3, _, h5, h6⟩
            · exfalso
              rcases lt_trichotomy r (((B1 + E) / 2 : ℚ) : ℝ) with hlt | heq | hgt
              · exact hl.left.no_root hv0 hr1 hlt hr
              · rw [heq] at hr; exact hm hr
              · exact hl.right.no_root hv1 hgt hr2 hr
            · exact ⟨rfl, by linarith, h3, fun _ => by linarith, h5, h6⟩
        · exact absurd hb (by simp)

theorem shrink_exists {r : ℝ} (hr : aeval r F = 0) {ε : ℝ} (hε1 : ε ≤ 1) : ∀ (n : Nat) {g : UPoly ℤ} {B E : ℚ} {lb rb : Bool}, Loc F g B E →
    vars (toPoly g) ≤ 1 → (B : ℝ) < r → r < E → (lb = false → ε ≤ r - B) → (rb = false → ε ≤ E - r) → (E : ℝ) - B < 2 ^ n * ε →
    ∀ fuel, n + 1 ≤ fuel → ∃ x, shrink fuel g B E lb rb = some x := by
  intro n
  induction n with
  | zero =>
    intro g B E lb rb hl hv h1 h2 hlb hrb hw fuel hf
    obtain ⟨fuel, rfl⟩ : ∃ m, fuel = m + 1 := ⟨fuel - 1, by omega⟩
    have e := code_vars hl.canon
    unfold shrink
    rw [e, if_neg (hl.vars_pos h1 h2 hr), if_pos]
    · exact ⟨_, rfl⟩
    · rw [pow_zero, one_mul] at hw
      refine ⟨?_, ?_, ?_⟩
      · have : ((E - B : ℚ) : ℝ) < (1 : ℚ) := by push_cast; linarith
        exact_mod_cast this
      · cases lb
        · have := hlb rfl; linarith
        · rfl
      · cases rb
        · have := hrb rfl; linarith
        · rfl
  | succ n ih =>
    intro g B E lb rb hl hv h1 h2 hlb hrb hw fuel hf
    obtain ⟨fuel, rfl⟩ : ∃ m, fuel = m + 1 := ⟨fuel - 1, by omega⟩
    have e := code_vars hl.canon
    have emid : (E + B) / 2 = (B + E) / 2 := by ring
    unfold shrink
    rw [e, emid, if_neg (hl.vars_pos h1 h2 hr)]
    by_cases hsm : E - B < 1 ∧ (lb = true ∧ rb = true)
    · rw [if_pos hsm]; exact ⟨_, rfl⟩
    rw [if_neg hsm]
    by_cases hm : assignQ g (1 / 2) = 0
    · rw [if_pos hm]; exact ⟨_, rfl⟩
    rw [if_neg hm]
    rw [hl.mid_iff] at hm
    have hwl : (((B + E) / 2 : ℚ) : ℝ) - B < 2 ^ n * ε := by push_cast; rw [pow_succ] at hw; linarith
    have hwr : (E : ℝ) - (((B + E) / 2 : ℚ) : ℝ) < 2 ^ n * ε := by push_cast; rw [pow_succ] at hw; linarith
    rcases lt_trichotomy r (((B + E) / 2 : ℚ) : ℝ) with hlt | heq | hgt
    · obtain ⟨x, hx⟩ := ih hl.left (hl.vars_left hv) h1 hlt hlb (rb := true) (by simp) hwl fuel (by omega)
      rw [hx]
      obtain ⟨b1, B1, m1⟩ := x
      have hs := hl.left.vars_pos h1 hlt hr
      -- the left call succeeds
      have : b1 = true := by
        obtain ⟨fuel, rfl⟩ : ∃ m, fuel = m + 1 := ⟨fuel - 1, by omega⟩
        unfold shrink at hx
        rw [code_vars hl.left.canon, if_neg hs] at hx
        split at hx
        · simp only [Option.some.injEq, Prod.mk.injEq] at hx; exact hx.1.symm
        · split at hx
          · simp only [Option.some.injEq, Prod.mk.injEq] at hx; exact hx.1.symm
          · split at hx
            · simp at hx
            · simp only [Option.some.injEq, Prod.mk.injEq] at hx; exact hx.1.symm
            · split at hx
              · simp at hx
              · simp only [Option.some.injEq, Prod.mk.injEq] at hx; exact hx.1.symm
      subst this
      exact ⟨_, rfl⟩
    · rw [heq] at hr; exact absurd hr hm
    · have hv0 : vars (toPoly (leftHalf g)) = 0 := by
        by_contra hne
        have h4 := hl.vars_left hv
        obtain ⟨y, hy1, hy2, hy⟩ := hl.left.exists_root (show vars (toPoly (leftHalf g)) = 1 by omega)
        have hmE : (((B + E) / 2 : ℚ) : ℝ) < E := by exact_mod_cast hl.right.lt
        have := hl.unique hv h1 h2 hy1 (hy2.trans hmE) hr hy
        linarith
      have hleft : shrink fuel (leftHalf g) B ((B + E) / 2) lb true = some (false, B, (B + E) / 2) := by
        obtain ⟨fuel, rfl⟩ : ∃ m, fuel = m + 1 := ⟨fuel - 1, by omega⟩
        unfold shrink
        rw [code_vars hl.left.canon, if_pos hv0]
      rw [hleft]
      obtain ⟨x, hx⟩ := ih hl.right (hl.vars_right hv) hgt h2 (lb := true) (by simp) hrb hwr fuel (by omega)
      simp only
      rw [hx]
      exact ⟨_, rfl⟩

/-- `uspensky_shrink` returns on an isolating interval -/
theorem shrink_returns (hl : Loc F g B E) (hv : vars (toPoly g) = 1) : ∃ N, ∀ fuel, N ≤ fuel → ∃ x, shrink fuel g B E false false = some x := by
  obtain ⟨r, h1, h2, hr⟩ := hl.exists_root hv
  obtain ⟨ε, hε⟩ : ∃ ε : ℝ, ε = min 1 (min (r - B) (E - r)) := ⟨_, rfl⟩
  have hε0 : 0 < ε := by rw [hε]; exact lt_min one_pos (lt_min (by linarith) (by linarith))
  obtain ⟨n, hn⟩ := pow_unbounded_of_one_lt (((E : ℝ) - B) / ε) (one_lt_two)
  rw [div_lt_iff₀ hε0] at hn
  refine ⟨n + 1, fun fuel hf => shrink_exists hr (hε ▸ min_le_left _ _) n hl hv.le h1 h2 (fun _ => ?_) (fun _ => ?_) hn fuel hf⟩
  · rw [hε]; exact (min_le_right _ _).trans (min_le_left _ _)
  · rw [hε]; exact (min_le_right _ _).trans (min_le_right _ _)

theorem shrink_one (hl : Loc F g B E) (hv : vars (toPoly g) = 1) {fuel : Nat} {x : Bool × ℚ × ℚ} (h : shrink fuel g B E false false = some x) :
    B < x.2.1 ∧ x.2.2 < E ∧ IsoAt F x.2 := by
  obtain ⟨b, B', E'⟩ := x
  rcases shrink_spec fuel hl hv.le (by simp) (by simp) h with ⟨h0, _⟩ | ⟨_, _, _, _, h1, h2, h3⟩
  · omega
  · exact ⟨h1 rfl, h2 rfl, h3⟩

/-! ### `subuspensky`, one polynomial -/

/-- the list `l` isolates the roots of `F` in the open interval `(B, E)` -/
structure IsoIn (F : ℤ[X]) (B E : ℚ) (l : List (ℚ × ℚ)) : Prop where
  inside : ∀ p ∈ l, B < p.1 ∧ p.2 < E ∧ IsoAt F p
  sorted : l.Pairwise fun p q => p.2 < q.1
  complete : ∀ x : ℝ, (B : ℝ) < x → x < E → aeval x F = 0 → ∃ p ∈ l, (p.1 : ℝ) ≤ x ∧ x ≤ p.2

theorem IsoAt.covers {p : ℚ × ℚ} (h : IsoAt F p) : p.1 ≤ p.2 := by
  rcases h with h | h
  · exact h.1.le
  · exact h.1.le

theorem subUsp_spec : ∀ (fuel : Nat) {g : UPoly ℤ} {B E : ℚ} {l : List (ℚ × ℚ)}, Loc F g B E → subUsp fuel g B E = some l → IsoIn F B E l := by
  intro fuel
  induction fuel with
  | zero => intro g B E l _ h; simp [subUsp] at h
  | succ n ih =>
    intro g B E l hl h
    have e := code_vars hl.canon
    unfold subUsp at h
    rw [e] at h
    dsimp only at h
    by_cases h0 : vars (toPoly g) = 0
    · rw [if_pos h0] at h
      simp only [Option.some.injEq] at h
      subst h
      exact ⟨by simp, by simp, fun x h1 h2 hx => absurd hx (hl.no_root h0 h1 h2)⟩
    rw [if_neg h0] at h
    by_cases h1 : vars (toPoly g) = 1
    · rw [if_pos h1] at h
      cases hs : shrink (n + 1) g B E false false with
      | none => rw [hs] at h; simp at h
      | some x =>
        rw [hs] at h
        simp only [Option.map_some, Option.some.injEq] at h
        subst h
        obtain ⟨h2, h3, h4⟩ := shrink_one hl h1 hs
        refine ⟨by simpa using ⟨h2, h3, h4⟩, by simp, fun y hy1 hy2 hy => ⟨x.2, by simp, ?_⟩⟩
        obtain ⟨z, ⟨hz1, hz2, hz⟩, _⟩ := h4.exists_unique
        have hb : (B : ℝ) < x.2.1 := by exact_mod_cast h2
        have hc : ((x.2.2 : ℚ) : ℝ) < E := by exact_mod_cast h3
        have : y = z := hl.unique h1.le hy1 hy2 (by linarith) (by linarith) hy hz
        subst this
        exact ⟨hz1, hz2⟩
    rw [if_neg h1] at h
    cases hL : subUsp n (leftHalf g) B ((B + E) / 2) with
    | none => rw [hL] at h; simp at h
    | some l1 =>
      cases hR : subUsp n (rightHalf g) ((B + E) / 2) E with
      | none => rw [hL, hR] at h; simp at h
      | some l2 =>
        rw [hL, hR] at h
        simp only [Option.some.injEq] at h
        subst h
        have iL := ih hl.left hL
        have iR := ih hl.right hR
        have hm1 : B < (B + E) / 2 := hl.left.lt
        have hm2 : (B + E) / 2 < E := hl.right.lt
        refine ⟨?_, ?_, ?_⟩
        · intro p hp
          rcases List.mem_append.1 hp with hp | hp
          · rcases List.mem_append.1 hp with hp | hp
            · obtain ⟨a, b, c⟩ := iL.inside p hp
              exact ⟨a, b.trans hm2, c⟩
            · split at hp
              · rename_i hmid
                simp only [List.mem_singleton] at hp
                subst hp
                exact ⟨hm1, hm2, Or.inl ⟨rfl, hl.mid_iff.1 hmid⟩⟩
              · simp at hp
          · obtain ⟨a, b, c⟩ := iR.inside p hp
            exact ⟨hm1.trans a, b, c⟩
        · rw [List.pairwise_append]
          refine ⟨?_, iR.sorted, ?_⟩
          · rw [List.pairwise_append]
            refine ⟨iL.sorted, by split <;> simp, ?_⟩
            intro p hp q hq
            split at hq
            · simp only [List.mem_singleton] at hq
              subst hq
              exact (iL.inside p hp).2.1
            · simp at hq
          · intro p hp q hq
            have hq1 := (iR.inside q hq).1
            rcases List.mem_append.1 hp with hp | hp
            · exact (iL.inside p hp).2.1.trans hq1
            · split at hp
              · simp only [List.mem_singleton] at hp
                subst hp
                exact hq1
              · simp at hp
        · intro x hx1 hx2 hx
          rcases lt_trichotomy x (((B + E) / 2 : ℚ) : ℝ) with hlt | heq | hgt
          · obtain ⟨p, hp, h3⟩ := iL.complete x hx1 hlt hx
            exact ⟨p, by simp [hp], h3⟩
          · subst heq
            refine ⟨((B + E) / 2, (B + E) / 2), ?_, le_rfl, le_rfl⟩
            rw [if_pos (hl.mid_iff.2 hx)]
            simp
          · obtain ⟨p, hp, h3⟩ := iR.complete x hgt hx2 hx
            exact ⟨p, by simp [hp], h3⟩

theorem subUsp_exists {W : ℚ} {δ : ℝ} (hδ : ∀ a h : ℝ, 0 ≤ a → a ≤ W → 0 < h → h ≤ δ → ∀ G, Sub F a h G → vars G ≤ 1) :
    ∀ (n : Nat) {g : UPoly ℤ} {B E : ℚ}, Loc F g B E → 0 ≤ B → E ≤ W → (E : ℝ) - B ≤ 2 ^ n * δ →
    ∃ N, ∀ fuel, N ≤ fuel → ∃ l, subUsp fuel g B E = some l := by
  intro n
  induction n with
  | zero =>
    intro g B E hl hB hE hw
    have hv : vars (toPoly g) ≤ 1 := by
      refine hδ B ((E : ℝ) - B) (by exact_mod_cast hB) ?_ hl.ltR (by simpa using hw) _ hl.sub
      have : B ≤ W := hl.lt.le.trans hE
      exact_mod_cast this
    by_cases h0 : vars (toPoly g) = 0
    · refine ⟨1, fun fuel hf => ?_⟩
      obtain ⟨fuel, rfl⟩ : ∃ m, fuel = m + 1 := ⟨fuel - 1, by omega⟩
      unfold subUsp
      rw [code_vars hl.canon]
      dsimp only
      rw [if_pos h0]
      exact ⟨_, rfl⟩
    · have h1 : vars (toPoly g) = 1 := by omega
      obtain ⟨N, hN⟩ := shrink_returns hl h1
      refine ⟨N + 1, fun fuel hf => ?_⟩
      obtain ⟨fuel, rfl⟩ : ∃ m, fuel = m + 1 := ⟨fuel - 1, by omega⟩
      obtain ⟨x, hx⟩ := hN (fuel + 1) (by omega)
      unfold subUsp
      rw [code_vars hl.canon]
      dsimp only
      rw [if_neg h0, if_pos h1, hx]
      exact ⟨_, rfl⟩
  | succ n ih =>
    intro g B E hl hB hE hw
    by_cases h0 : vars (toPoly g) = 0
    · refine ⟨1, fun fuel hf => ?_⟩
      obtain ⟨fuel, rfl⟩ : ∃ m, fuel = m + 1 := ⟨fuel - 1, by omega⟩
      unfold subUsp
      rw [code_vars hl.canon]
      dsimp only
      rw [if_pos h0]
      exact ⟨_, rfl⟩
    by_cases h1 : vars (toPoly g) = 1
    · obtain ⟨N, hN⟩ := shrink_returns hl h1
      refine ⟨N + 1, fun fuel hf => ?_⟩
      obtain ⟨fuel, rfl⟩ : ∃ m, fuel = m + 1 := ⟨fuel - 1, by omega⟩
      obtain ⟨x, hx⟩ := hN (fuel + 1) (by omega)
      unfold subUsp
      rw [code_vars hl.canon]
      dsimp only
      rw [if_neg h0, if_pos h1, hx]
      exact ⟨_, rfl⟩
    rw [pow_succ] at hw
    have hlt := hl.lt
    obtain ⟨N1, hN1⟩ := ih hl.left hB (by linarith [hl.right.lt]) (by push_cast; linarith)
    obtain ⟨N2, hN2⟩ := ih hl.right (by linarith [hl.left.lt]) hE (by push_cast; linarith)
    refine ⟨max N1 N2 + 1, fun fuel hf => ?_⟩
    obtain ⟨fuel, rfl⟩ : ∃ m, fuel = m + 1 := ⟨fuel - 1, by omega⟩
    obtain ⟨l1, h1'⟩ := hN1 fuel (by omega)
    obtain ⟨l2, h2'⟩ := hN2 fuel (by omega)
    unfold subUsp
    rw [code_vars hl.canon]
    dsimp only
    rw [if_neg h0, if_neg h1, h1', h2']
    exact ⟨_, rfl⟩

theorem subUsp_returns (hl : Loc F g 0 E)
    (hF : ∀ x : ℝ, 0 ≤ x → x ≤ E → aeval x F = 0 → aeval x (Polynomial.derivative F) ≠ 0) :
    ∃ N, ∀ fuel, N ≤ fuel → ∃ l, subUsp fuel g 0 E = some l := by
  have hE : (0 : ℝ) ≤ E := by exact_mod_cast hl.lt.le
  obtain ⟨δ, hδ, h⟩ := eventually_small F E hE hF
  obtain ⟨n, hn⟩ := pow_unbounded_of_one_lt ((E : ℝ) / δ) one_lt_two
  rw [div_lt_iff₀ hδ] at hn
  exact subUsp_exists h n hl le_rfl le_rfl (by push_cast; linarith)

end

/-! ### `RealRootBound` -/

theorem foldl_max_ge (l : UPoly ℤ) : ∀ (b : ℤ), b ≤ l.foldl (fun B u => if |u.2| > B then |u.2| else B) b ∧
    ∀ u ∈ l, |u.2| ≤ l.foldl (fun B u => if |u.2| > B then |u.2| else B) b := by
  induction l with
  | nil => intro b; simp
  | cons t l ih =>
    intro b
    rw [List.foldl_cons]
    obtain ⟨h1, h2⟩ := ih (if |t.2| > b then |t.2| else b)
    have h3 : b ≤ (if |t.2| > b then |t.2| else b) := by split <;> omega
    have h4 : |t.2| ≤ (if |t.2| > b then |t.2| else b) := by split <;> omega
    refine ⟨h3.trans h1, fun u hu => ?_⟩
    rcases List.mem_cons.1 hu with rfl | hu
    · exact h4.trans h1
    · exact h2 u hu

/-- Cauchy's bound -/
theorem cauchy_bound {n : Nat} {a : ℝ} (ha : a ≠ 0) (l : List (Nat × ℤ)) (hl : l.Pairwise fun u v => v.1 < u.1) (hn : ∀ u ∈ l, u.1 < n) {K : ℝ}
    (hK0 : 0 ≤ K) (hK : ∀ u ∈ l, |(u.2 : ℝ)| ≤ K * |a|) {x : ℝ} (hx : K + 1 ≤ |x|) : a * x ^ n + (l.map fun t => (t.2 : ℝ) * x ^ t.1).sum ≠ 0 := by
  have hx1 : 1 ≤ |x| := by linarith
  have key : ∀ (l : List (Nat × ℤ)) (m : Nat), (l.Pairwise fun u v => v.1 < u.1) → (∀ u ∈ l, u.1 < m) → (∀ u ∈ l, |(u.2 : ℝ)| ≤ K * |a|) →
      |(l.map fun t => (t.2 : ℝ) * x ^ t.1).sum| ≤ |a| * (|x| ^ m - 1) := by
    intro l
    induction l with
    | nil =>
      intro m _ _ _
      simp only [List.map_nil, List.sum_nil, abs_zero]
      have : 1 ≤ |x| ^ m := one_le_pow₀ hx1
      have := abs_nonneg a
      nlinarith
    | cons t l ih =>
      intro m hp hm hk
      have h1 := ih t.1 (List.pairwise_cons.1 hp).2 (List.pairwise_cons.1 hp).1 (fun u hu => hk u (List.mem_cons_of_mem _ hu))
      have h2 := hk t List.mem_cons_self
      have h3 := hm t List.mem_cons_self
      have h4 : |x| ^ (t.1 + 1) ≤ |x| ^ m := pow_le_pow_right₀ hx1 h3
      simp only [List.map_cons, List.sum_cons]
      refine (abs_add_le _ _).trans ?_
      rw [abs_mul, abs_pow]
      have h5 : 0 < |x| ^ t.1 := by positivity
      have h6 : |(t.2 : ℝ)| * |x| ^ t.1 ≤ K * |a| * |x| ^ t.1 := by gcongr
      have h7 : |a| * ((K + 1) * |x| ^ t.1) ≤ |a| * |x| ^ m := by
        gcongr
        calc (K + 1) * |x| ^ t.1 ≤ |x| * |x| ^ t.1 := by gcongr
          _ = |x| ^ (t.1 + 1) := by ring
          _ ≤ _ := h4
      nlinarith
  intro hz
  have h1 := key l n hl hn hK
  have h2 : (l.map fun t => (t.2 : ℝ) * x ^ t.1).sum = -(a * x ^ n) := by linarith
  rw [h2, abs_neg, abs_mul, abs_pow] at h1
  have : 0 < |a| := abs_pos.2 ha
  nlinarith

theorem pow_two_round {b : ℤ} (hb : 0 < b) : b ≤ (if b = (2 : ℤ) ^ (bitLen b - 1) then b else 2 * 2 ^ (bitLen b - 1)) ∧
    ∃ k : Nat, (if b = (2 : ℤ) ^ (bitLen b - 1) then b else 2 * 2 ^ (bitLen b - 1)) = 2 ^ k := by
  have e : bitLen b = b.natAbs.size := by unfold bitLen; rw [if_neg hb.ne']
  have hs : 0 < b.natAbs.size := Nat.size_pos.2 (by omega)
  split
  · rename_i h; exact ⟨le_rfl, _, h⟩
  · refine ⟨?_, bitLen b, ?_⟩
    · have h1 := Nat.lt_size_self b.natAbs
      have h2 : (b.natAbs : ℤ) < ((2 ^ b.natAbs.size : Nat) : ℤ) := by exact_mod_cast h1
      have h3 : (2 : ℤ) * 2 ^ (bitLen b - 1) = 2 ^ b.natAbs.size := by
        rw [e, ← pow_succ']; congr 1; omega
      rw [h3]
      have h4 : b = (b.natAbs : ℤ) := by omega
      have h5 : ((2 ^ b.natAbs.size : Nat) : ℤ) = 2 ^ b.natAbs.size := by push_cast; rfl
      rw [h5] at h2
      rw [← h4] at h2
      exact h2.le
    · rw [← pow_succ']; congr 1; omega

theorem rootBound_spec {g : UPoly ℤ} (h : Canon comp g) (h0 : g ≠ []) :
    3 ≤ rootBound g ∧ (∃ k : Nat, rootBound g = 2 ^ k) ∧ ∀ x : ℝ, aeval x (toPoly g) = 0 → |x| < rootBound g := by
  cases g with
  | nil => exact absurd rfl h0
  | cons t l =>
    obtain ⟨hdeg, ht, hl⟩ := canon_cons.1 h
    obtain ⟨M, hM⟩ : ∃ M, M = l.foldl (fun B u => if |u.2| > B then |u.2| else B) |t.2| := ⟨_, rfl⟩
    obtain ⟨hM1, hM2⟩ := foldl_max_ge l |t.2|
    rw [← hM] at hM1 hM2
    have htp : 0 < |t.2| := abs_pos.2 ht
    obtain ⟨b, hb⟩ : ∃ b, b = M / |t.2| + 3 := ⟨_, rfl⟩
    have hd : 0 ≤ M / |t.2| := Int.ediv_nonneg (by omega) htp.le
    obtain ⟨h1, k, hk⟩ := pow_two_round (b := b) (by omega)
    have e : rootBound (t :: l) = if b = (2 : ℤ) ^ (bitLen b - 1) then b else 2 * 2 ^ (bitLen b - 1) := by
      rw [hb, hM]; rfl
    rw [e]
    refine ⟨by omega, ⟨k, hk⟩, fun x hx => ?_⟩
    by_contra hcon
    push Not at hcon
    have hbx : (b : ℝ) ≤ |x| := le_trans (by exact_mod_cast h1) hcon
    have hta : (t.2 : ℝ) ≠ 0 := by exact_mod_cast ht
    rw [aeval_toPoly, List.map_cons, List.sum_cons] at hx
    have hK0 : (0 : ℝ) ≤ ((M / |t.2| : ℤ) : ℝ) + 1 := by
      have : (0 : ℝ) ≤ ((M / |t.2| : ℤ) : ℝ) := by exact_mod_cast hd
      linarith
    refine cauchy_bound hta l ?_ hdeg (K := ((M / |t.2| : ℤ) : ℝ) + 1) hK0 ?_ ?_ hx
    · have := hl.1
      refine this.imp ?_
      intro a b hab
      simpa [comp] using hab
    · intro u hu
      have h2 := hM2 u hu
      have h3 : M ≤ (M / |t.2| + 1) * |t.2| := (Int.lt_ediv_add_one_mul_self M htp).le
      have h4 : |u.2| ≤ (M / |t.2| + 1) * |t.2| := h2.trans h3
      exact_mod_cast h4
    · have : (b : ℝ) = ((M / |t.2| : ℤ) : ℝ) + 3 := by exact_mod_cast hb
      linarith

/-! ### `uspensky`, one polynomial -/

theorem aeval_neg_comp (F : ℤ[X]) (x : ℝ) : aeval x (F.comp (-X)) = aeval (-x) F := by
  rw [aeval_comp]; simp

theorem comp_neg_ne {F : ℤ[X]} (h : F ≠ 0) : F.comp (-X) ≠ 0 := by
  intro hc
  apply h
  have : (F.comp (-X)).comp (-X) = F := by rw [comp_assoc]; simp
  rw [← this, hc]; simp

theorem Loc.pos {g : UPoly ℤ} {F : ℤ[X]} (hg : Is g F) (h0 : F ≠ 0) {R : ℤ} (hR : 0 < R) : Loc F (bTo1 g R) 0 R := by
  refine ⟨bTo1_canon hg.canon hR.ne', by exact_mod_cast hR, ⟨1, one_pos, fun x => ?_⟩, h0⟩
  rw [bTo1_eval, hg.eq]; simp

theorem Loc.neg {g : UPoly ℤ} {F : ℤ[X]} (hg : Is g F) (h0 : F ≠ 0) {R : ℤ} (hR : 0 < R) : Loc (F.comp (-X)) (bTo1 g (-R)) 0 R := by
  refine ⟨bTo1_canon hg.canon (by omega), by exact_mod_cast hR, ⟨1, one_pos, fun x => ?_⟩, comp_neg_ne h0⟩
  rw [bTo1_eval, hg.eq, aeval_neg_comp]; simp

theorem IsoAt.neg {F : ℤ[X]} {p : ℚ × ℚ} (h : IsoAt (F.comp (-X)) p) : IsoAt F (-p.2, -p.1) := by
  simp only [IsoAt, aeval_neg_comp] at h ⊢
  push_cast
  rcases h with ⟨h1, h2⟩ | ⟨h1, h2, h3, h4, x, ⟨hx1, hx2, hx⟩, hu⟩
  · left; exact ⟨by rw [h1], by rw [← h1]; exact h2⟩
  · right
    refine ⟨by linarith, by linarith, h4, h3, -x, ⟨by linarith, by linarith, hx⟩, ?_⟩
    rintro y ⟨hy1, hy2, hy⟩
    have := hu (-y) ⟨by linarith, by linarith, by rwa [neg_neg]⟩
    linarith

/-- the list isolates all roots of `F` in `S` -/
structure Isolation (F : ℤ[X]) (S : Set ℝ) (l : List (ℚ × ℚ)) : Prop where
  each : ∀ p ∈ l, IsoAt F p
  sorted : l.Pairwise fun p q => p.2 < q.1
  complete : ∀ x ∈ S, aeval x F = 0 → ∃ p ∈ l, (p.1 : ℝ) ≤ x ∧ x ≤ p.2

theorem uspensky_spec {g : UPoly ℤ} {F : ℤ[X]} (hg : Is g F) (h0 : F ≠ 0) {fuel : Nat} {l : List (ℚ × ℚ)} (h : uspensky fuel g = some l) :
    Isolation F {x | x ≠ 0} l ∧ ∀ p ∈ l, p.2 < 0 ∨ 0 < p.1 := by
  have hne : g ≠ [] := fun hc => h0 ((is_nil_iff hg).1 hc)
  unfold uspensky at h
  split at h
  · rename_i hc
    simp only [Option.some.injEq] at h
    subst h
    refine ⟨⟨by simp, by simp, fun x _ hx => ?_⟩, by simp⟩
    exfalso
    have hd : F.natDegree = 0 := by
      rcases hc with hc | hc
      · exact absurd hc hne
      · rw [← is_deg hg]; exact hc
    rw [eq_C_of_natDegree_eq_zero hd, aeval_C] at hx
    have : F.coeff 0 = 0 := by simpa using hx
    exact h0 (by rw [eq_C_of_natDegree_eq_zero hd, this]; simp)
  · obtain ⟨h3, _, hbd⟩ := rootBound_spec hg.canon hne
    rw [hg.eq] at hbd
    have hpos : 0 < rootBound g := by omega
    cases hL : subUsp fuel (bTo1 g (-rootBound g)) 0 (rootBound g) with
    | none => rw [hL] at h; simp at h
    | some l1 =>
      cases hR : subUsp fuel (bTo1 g (rootBound g)) 0 (rootBound g) with
      | none => rw [hL, hR] at h; simp at h
      | some l2 =>
        rw [hL, hR] at h
        simp only [Option.some.injEq] at h
        subst h
        have i1 := subUsp_spec fuel (Loc.neg hg h0 hpos) hL
        have i2 := subUsp_spec fuel (Loc.pos hg h0 hpos) hR
        have hmem : ∀ p ∈ negRev l1, ∃ q ∈ l1, p = (-q.2, -q.1) := by
          intro p hp
          obtain ⟨q, hq, rfl⟩ := List.mem_map.1 hp
          exact ⟨q, List.mem_reverse.1 hq, rfl⟩
        refine ⟨⟨?_, ?_, ?_⟩, ?_⟩
        · intro p hp
          rcases List.mem_append.1 hp with hp | hp
          · obtain ⟨q, hq, rfl⟩ := hmem p hp
            exact (i1.inside q hq).2.2.neg
          · exact (i2.inside p hp).2.2
        · rw [List.pairwise_append]
          refine ⟨?_, i2.sorted, ?_⟩
          · unfold negRev
            rw [List.pairwise_map, List.pairwise_reverse]
            refine i1.sorted.imp ?_
            intro a b hab
            simpa using hab
          · intro p hp q hq
            obtain ⟨r, hr, rfl⟩ := hmem p hp
            have h4 := (i1.inside r hr).1
            have h5 := (i2.inside q hq).1
            simp only
            linarith
        · intro x hx0 hx
          have hb := hbd x hx
          rcases lt_or_gt_of_ne hx0 with hneg | hp
          · obtain ⟨q, hq, h4, h5⟩ := i1.complete (-x) (by simpa using hneg) (by rw [abs_of_neg hneg] at hb; exact_mod_cast hb) (by rw [aeval_neg_comp, neg_neg]; exact hx)
            refine ⟨(-q.2, -q.1), List.mem_append_left _ ?_, by push_cast; linarith, by push_cast; linarith⟩
            exact List.mem_map.2 ⟨q, List.mem_reverse.2 hq, rfl⟩
          · obtain ⟨q, hq, h4⟩ := i2.complete x (by simpa using hp) (by rw [abs_of_pos hp] at hb; exact_mod_cast hb) hx
            exact ⟨q, List.mem_append_right _ hq, h4⟩
        · intro p hp
          rcases List.mem_append.1 hp with hp | hp
          · obtain ⟨q, hq, rfl⟩ := hmem p hp
            left
            have := (i1.inside q hq).1
            simp only
            linarith
          · right; exact (i2.inside p hp).1

theorem uspensky_returns {g : UPoly ℤ} {F : ℤ[X]} (hg : Is g F) (h0 : F ≠ 0)
    (hF : ∀ x : ℝ, aeval x F = 0 → aeval x (Polynomial.derivative F) ≠ 0) : ∃ N, ∀ fuel, N ≤ fuel → ∃ l, uspensky fuel g = some l := by
  have hne : g ≠ [] := fun hc => h0 ((is_nil_iff hg).1 hc)
  by_cases hc : g = [] ∨ deg g = 0
  · exact ⟨0, fun fuel _ => ⟨[], by unfold uspensky; rw [if_pos hc]⟩⟩
  obtain ⟨h3, _, _⟩ := rootBound_spec hg.canon hne
  have hpos : 0 < rootBound g := by omega
  obtain ⟨N1, hN1⟩ := subUsp_returns (Loc.neg hg h0 hpos) (fun x _ _ hx => by
    rw [aeval_neg_comp] at hx
    have := hF _ hx
    rw [derivative_comp, map_mul, aeval_neg_comp]
    simpa using this)
  obtain ⟨N2, hN2⟩ := subUsp_returns (Loc.pos hg h0 hpos) (fun x _ _ hx => hF x hx)
  refine ⟨max N1 N2, fun fuel hf => ?_⟩
  obtain ⟨l1, h1⟩ := hN1 fuel (by omega)
  obtain ⟨l2, h2⟩ := hN2 fuel (by omega)
  exact ⟨_, by unfold uspensky; rw [if_neg hc, h1, h2]⟩

end Upoly
end CLPoly
