import Verif.Upoly.RealRoot

/-!
# Real root isolation for a list of polynomials
-/

namespace CLPoly
namespace Upoly
open Polynomial

section
variable {Fs : Nat → ℤ[X]}

/-- every polynomial of the list is `Fs i` seen on `(B, E)` -/
def LocM (Fs : Nat → ℤ[X]) (G : List (Nat × UPoly ℤ)) (B E : ℚ) : Prop := ∀ p ∈ G, Loc (Fs p.1) p.2 B E

/-- no two polynomials of the list have a common real root -/
def NoCommon (Fs : Nat → ℤ[X]) (G : List (Nat × UPoly ℤ)) : Prop :=
  ∀ p ∈ G, ∀ q ∈ G, p.1 ≠ q.1 → ∀ x : ℝ, aeval x (Fs p.1) = 0 → aeval x (Fs q.1) ≠ 0

/-- the entries `(i, interval)` of `l` isolate the roots in `(B, E)` of all polynomials of the list -/
structure IsoInM (Fs : Nat → ℤ[X]) (G : List (Nat × UPoly ℤ)) (B E : ℚ) (l : List (Nat × (ℚ × ℚ))) : Prop where
  inside : ∀ e ∈ l, (∃ p ∈ G, p.1 = e.1) ∧ B < e.2.1 ∧ e.2.2 < E ∧ IsoAt (Fs e.1) e.2 ∧
    ∀ p ∈ G, p.1 ≠ e.1 → ∀ x : ℝ, (e.2.1 : ℝ) ≤ x → x ≤ e.2.2 → aeval x (Fs p.1) ≠ 0
  sorted : l.Pairwise fun e e' => e.2.2 < e'.2.1
  complete : ∀ p ∈ G, ∀ x : ℝ, (B : ℝ) < x → x < E → aeval x (Fs p.1) = 0 → ∃ e ∈ l, e.1 = p.1 ∧ (e.2.1 : ℝ) ≤ x ∧ x ≤ e.2.2

theorem midHit_spec : ∀ (vs : List ((Nat × UPoly ℤ) × Nat)),
    (∀ q ∈ vs, q ∈ (midHit vs).2 ∨ (q.2 = 1 ∧ assignQ q.1.2 (1 / 2) = 0)) ∧ (∀ q ∈ (midHit vs).2, q ∈ vs ∨ q.2 = 0) ∧
    ((midHit vs).2.map Prod.fst = vs.map Prod.fst) ∧
    ((midHit vs).1 = none → ∀ q ∈ vs, assignQ q.1.2 (1 / 2) ≠ 0) ∧
    (∀ i, (midHit vs).1 = some i → ∃ p ∈ vs, p.1.1 = i ∧ assignQ p.1.2 (1 / 2) = 0) := by
  intro vs
  induction vs with
  | nil => simp [midHit]
  | cons p l ih =>
    unfold midHit
    split
    · rename_i h
      refine ⟨?_, ?_, by simp, by simp, ?_⟩
      · intro q hq
        rcases List.mem_cons.1 hq with rfl | hq
        · by_cases h1 : q.2 = 1
          · exact Or.inr ⟨h1, h⟩
          · left; rw [if_neg h1]; simp
        · left; exact List.mem_cons_of_mem _ hq
      · intro q hq
        rcases List.mem_cons.1 hq with rfl | hq
        · by_cases h1 : p.2 = 1
          · right; simp [h1]
          · left; rw [if_neg h1]; simp
        · left; exact List.mem_cons_of_mem _ hq
      · rintro i hi
        simp only [Option.some.injEq] at hi
        exact ⟨p, List.mem_cons_self, hi, h⟩
    · rename_i h
      obtain ⟨h1, h2, h3, h4, h5⟩ := ih
      refine ⟨?_, ?_, by simp [h3], ?_, ?_⟩
      · intro q hq
        rcases List.mem_cons.1 hq with rfl | hq
        · left; exact List.mem_cons_self
        · rcases h1 q hq with h | h
          · left; exact List.mem_cons_of_mem _ h
          · right; exact h
      · intro q hq
        rcases List.mem_cons.1 hq with rfl | hq
        · left; exact List.mem_cons_self
        · rcases h2 q hq with h | h
          · left; exact List.mem_cons_of_mem _ h
          · right; exact h
      · intro hn q hq
        rcases List.mem_cons.1 hq with rfl | hq
        · exact h
        · exact h4 hn q hq
      · intro i hi
        obtain ⟨p', hp', h6⟩ := h5 i hi
        exact ⟨p', List.mem_cons_of_mem _ hp', h6⟩

theorem filter_two {α : Type*} (P Q : α → Bool) (hd : ∀ a, P a = true → Q a = false) : ∀ (l : List α),
    (l.filter P).length + (l.filter Q).length = l.length → ∀ a ∈ l, P a = true ∨ Q a = true := by
  have hle : ∀ l : List α, (l.filter P).length + (l.filter Q).length ≤ l.length := by
    intro l
    induction l with
    | nil => simp
    | cons a l ih =>
      rw [List.filter_cons, List.filter_cons]
      cases hP : P a <;> cases hQ : Q a <;> simp <;> try omega
      have := hd a hP; rw [hQ] at this; simp at this
  intro l
  induction l with
  | nil => simp
  | cons a l ih =>
    intro h b hb
    have hl := hle l
    rw [List.filter_cons, List.filter_cons] at h
    rcases List.mem_cons.1 hb with rfl | hb
    · by_contra hc
      push Not at hc
      rw [if_neg hc.1, if_neg hc.2] at h
      simp at h
      omega
    · refine ih ?_ b hb
      cases hP : P a <;> cases hQ : Q a <;> simp [hP, hQ] at h <;> try omega
      have := hd a hP; rw [hQ] at this; simp at this

theorem mem_variationsOf {G : List (Nat × UPoly ℤ)} {q : (Nat × UPoly ℤ) × Nat} :
    q ∈ variationsOf G ↔ q.1 ∈ G ∧ q.2 = coeffSignChanges (oneToInf q.1.2) := by
  unfold variationsOf
  rw [List.mem_map]
  constructor
  · rintro ⟨p, hp, rfl⟩; exact ⟨hp, rfl⟩
  · rintro ⟨h1, h2⟩; exact ⟨q.1, h1, by rw [← h2]⟩

theorem variationsOf_length (G : List (Nat × UPoly ℤ)) : (variationsOf G).length = G.length := by simp [variationsOf]

/-- the polynomials that the recursive calls see -/
def restOf (G : List (Nat × UPoly ℤ)) : List (Nat × UPoly ℤ) := ((midHit (variationsOf G)).2.filter fun p => decide (p.2 > 0)).map Prod.fst

theorem restOf_sublist (G : List (Nat × UPoly ℤ)) : (restOf G).Sublist G := by
  have h := (midHit_spec (variationsOf G)).2.2.1
  have e : (variationsOf G).map Prod.fst = G := by simp [variationsOf, List.map_map, Function.comp_def]
  rw [e] at h
  conv_rhs => rw [← h]
  exact List.Sublist.map _ List.filter_sublist

theorem mem_restOf {G : List (Nat × UPoly ℤ)} {p : Nat × UPoly ℤ} (hp : p ∈ G) :
    p ∈ restOf G ∨ coeffSignChanges (oneToInf p.2) = 0 ∨ (coeffSignChanges (oneToInf p.2) = 1 ∧ assignQ p.2 (1 / 2) = 0) := by
  by_cases h0 : coeffSignChanges (oneToInf p.2) = 0
  · exact Or.inr (Or.inl h0)
  have hq : (p, coeffSignChanges (oneToInf p.2)) ∈ variationsOf G := mem_variationsOf.2 ⟨hp, rfl⟩
  rcases (midHit_spec (variationsOf G)).1 _ hq with h | h
  · left
    refine List.mem_map.2 ⟨_, List.mem_filter.2 ⟨h, ?_⟩, rfl⟩
    simp; omega
  · exact Or.inr (Or.inr h)

theorem subUspM_spec : ∀ (fuel : Nat) {G : List (Nat × UPoly ℤ)} {B E : ℚ} {l : List (Nat × (ℚ × ℚ))}, B < E → LocM Fs G B E → NoCommon Fs G →
    subUspM fuel G B E = some l → IsoInM Fs G B E l := by
  intro fuel
  induction fuel with
  | zero => intro G B E l _ _ _ h; simp [subUspM] at h
  | succ n ih =>
    intro G B E l hBE hl hnc h
    unfold subUspM at h
    dsimp only at h
    have hlen := variationsOf_length G
    have hcv : ∀ p ∈ G, coeffSignChanges (oneToInf p.2) = vars (toPoly p.2) := fun p hp => code_vars (hl p hp).canon
    by_cases h0 : ((variationsOf G).filter fun p => decide (p.2 = 0)).length = G.length
    · rw [if_pos h0] at h
      simp only [Option.some.injEq] at h
      subst h
      refine ⟨by simp, by simp, fun p hp x h1 h2 hx => ?_⟩
      exfalso
      rw [← hlen, List.length_filter_eq_length_iff] at h0
      have := h0 _ (mem_variationsOf.2 ⟨hp, rfl⟩ : (p, coeffSignChanges (oneToInf p.2)) ∈ variationsOf G)
      simp only [decide_eq_true_eq] at this
      rw [hcv p hp] at this
      exact (hl p hp).no_root this h1 h2 hx
    rw [if_neg h0] at h
    by_cases h1 : ((variationsOf G).filter fun p => decide (p.2 = 1)).length = 1 ∧
      ((variationsOf G).filter fun p => decide (p.2 = 0)).length = G.length - 1
    · rw [if_pos h1] at h
      obtain ⟨h1a, h1b⟩ := h1
      obtain ⟨q, hq⟩ := List.length_eq_one_iff.1 h1a
      have hqm : q ∈ (variationsOf G).filter fun p => decide (p.2 = 1) := by rw [hq]; simp
      obtain ⟨hqv, hq1⟩ := List.mem_filter.1 hqm
      simp only [decide_eq_true_eq] at hq1
      have hGpos : 0 < G.length := by
        rw [← hlen]; exact List.length_pos_of_mem hqv
      have hfind : (variationsOf G).find? (fun p => decide (p.2 = 1)) = some q := by
        rw [← List.head?_filter, hq]; rfl
      rw [hfind] at h
      simp only at h
      obtain ⟨hqG, hqe⟩ := mem_variationsOf.1 hqv
      have hL := hl q.1 hqG
      have hv1 : vars (toPoly q.1.2) = 1 := by rw [← hcv _ hqG, ← hqe]; exact hq1
      have hother : ∀ p ∈ G, p = q.1 ∨ vars (toPoly p.2) = 0 := by
        intro p hp
        have hpm : (p, coeffSignChanges (oneToInf p.2)) ∈ variationsOf G := mem_variationsOf.2 ⟨hp, rfl⟩
        rcases filter_two (fun p : (Nat × UPoly ℤ) × Nat => decide (p.2 = 0)) (fun p => decide (p.2 = 1)) (by intro a ha; simp at *; omega) (variationsOf G)
          (by rw [h1a, h1b, hlen]; omega) _ hpm with h2 | h2
        · right
          simp only [decide_eq_true_eq] at h2
          rw [← hcv p hp]; exact h2
        · left
          have : (p, coeffSignChanges (oneToInf p.2)) ∈ (variationsOf G).filter fun p => decide (p.2 = 1) := List.mem_filter.2 ⟨hpm, h2⟩
          rw [hq, List.mem_singleton] at this
          rw [← this]
      cases hs : shrink (n + 1) q.1.2 B E false false with
      | none => rw [hs] at h; simp at h
      | some x =>
        rw [hs] at h
        simp only [Option.map_some, Option.some.injEq] at h
        subst h
        obtain ⟨h2, h3, h4⟩ := shrink_one hL hv1 hs
        have hb : (B : ℝ) < x.2.1 := by exact_mod_cast h2
        have hc : ((x.2.2 : ℚ) : ℝ) < E := by exact_mod_cast h3
        refine ⟨?_, by simp, ?_⟩
        · intro e he
          simp only [List.mem_singleton] at he
          subst he
          refine ⟨⟨q.1, hqG, rfl⟩, h2, h3, h4, fun p hp hne y hy1 hy2 hy => ?_⟩
          rcases hother p hp with rfl | hv0
          · exact hne rfl
          · simp only at hy1 hy2
            exact (hl p hp).no_root hv0 (by linarith) (by linarith) hy
        · intro p hp y hy1 hy2 hy
          rcases hother p hp with rfl | hv0
          · refine ⟨(q.1.1, x.2), by simp, rfl, ?_⟩
            obtain ⟨z, ⟨hz1, hz2, hz⟩, _⟩ := h4.exists_unique
            have : y = z := hL.unique hv1.le hy1 hy2 (by linarith) (by linarith) hy hz
            subst this
            exact ⟨hz1, hz2⟩
          · exact absurd hy ((hl p hp).no_root hv0 hy1 hy2)
    rw [if_neg h1] at h
    have hfold : ((midHit (variationsOf G)).2.filter fun p => decide (p.2 > 0)).map Prod.fst = restOf G := rfl
    rw [hfold] at h
    have hsub := restOf_sublist G
    obtain ⟨GL, hGL⟩ : ∃ GL, GL = (restOf G).map fun p => (p.1, leftHalf p.2) := ⟨_, rfl⟩
    obtain ⟨GR, hGR⟩ : ∃ GR, GR = (restOf G).map fun p => (p.1, rightHalf p.2) := ⟨_, rfl⟩
    rw [← hGL, ← hGR] at h
    have hmL : ∀ q ∈ GL, ∃ p ∈ G, p ∈ restOf G ∧ q = (p.1, leftHalf p.2) := by
      intro q hq; rw [hGL] at hq
      obtain ⟨p, hp, rfl⟩ := List.mem_map.1 hq
      exact ⟨p, hsub.subset hp, hp, rfl⟩
    have hmR : ∀ q ∈ GR, ∃ p ∈ G, p ∈ restOf G ∧ q = (p.1, rightHalf p.2) := by
      intro q hq; rw [hGR] at hq
      obtain ⟨p, hp, rfl⟩ := List.mem_map.1 hq
      exact ⟨p, hsub.subset hp, hp, rfl⟩
    have hlL : LocM Fs GL B ((B + E) / 2) := by
      intro q hq
      obtain ⟨p, hp, _, rfl⟩ := hmL q hq
      exact (hl p hp).left
    have hlR : LocM Fs GR ((B + E) / 2) E := by
      intro q hq
      obtain ⟨p, hp, _, rfl⟩ := hmR q hq
      exact (hl p hp).right
    have hnL : NoCommon Fs GL := by
      intro q hq q' hq' hne
      obtain ⟨p, hp, _, rfl⟩ := hmL q hq
      obtain ⟨p', hp', _, rfl⟩ := hmL q' hq'
      exact hnc p hp p' hp' hne
    have hnR : NoCommon Fs GR := by
      intro q hq q' hq' hne
      obtain ⟨p, hp, _, rfl⟩ := hmR q hq
      obtain ⟨p', hp', _, rfl⟩ := hmR q' hq'
      exact hnc p hp p' hp' hne
    have hm1 : B < (B + E) / 2 := by linarith
    have hm2 : (B + E) / 2 < E := by linarith
    have hm1R : (B : ℝ) < (((B + E) / 2 : ℚ) : ℝ) := by exact_mod_cast hm1
    have hm2R : (((B + E) / 2 : ℚ) : ℝ) < E := by exact_mod_cast hm2
    obtain ⟨_, _, _, hnone, hsome⟩ := midHit_spec (variationsOf G)
    cases hL : subUspM n GL B ((B + E) / 2) with
    | none => rw [hL] at h; simp at h
    | some l1 =>
      cases hR : subUspM n GR ((B + E) / 2) E with
      | none => rw [hL, hR] at h; simp at h
      | some l2 =>
        rw [hL, hR] at h
        simp only [Option.some.injEq] at h
        subst h
        have iL := ih hm1 hlL hnL hL
        have iR := ih hm2 hlR hnR hR
        -- a polynomial that was dropped vanishes in `(B, E)` at most at the midpoint
        have hdrop : ∀ p ∈ G, p ∉ restOf G → ∀ x : ℝ, (B : ℝ) < x → x < E → aeval x (Fs p.1) = 0 → x = (((B + E) / 2 : ℚ) : ℝ) := by
          intro p hp hnr x hx1 hx2 hx
          rcases mem_restOf hp with h | h | ⟨h, hmid⟩
          · exact absurd h hnr
          · rw [hcv p hp] at h
            exact absurd hx ((hl p hp).no_root h hx1 hx2)
          · rw [hcv p hp] at h
            exact (hl p hp).unique h.le hx1 hx2 hm1R hm2R hx ((hl p hp).mid_iff.1 hmid)
        have hLmem : ∀ p ∈ restOf G, (p.1, leftHalf p.2) ∈ GL := fun p hp => by rw [hGL]; exact List.mem_map.2 ⟨p, hp, rfl⟩
        have hRmem : ∀ p ∈ restOf G, (p.1, rightHalf p.2) ∈ GR := fun p hp => by rw [hGR]; exact List.mem_map.2 ⟨p, hp, rfl⟩
        have hM : ∀ e ∈ ((midHit (variationsOf G)).1.toList.map fun i => (i, ((B + E) / 2, (B + E) / 2))),
            ∃ p ∈ G, e = (p.1, ((B + E) / 2, (B + E) / 2)) ∧ aeval (((B + E) / 2 : ℚ) : ℝ) (Fs p.1) = 0 := by
          intro e he
          obtain ⟨i, hi, rfl⟩ := List.mem_map.1 he
          obtain ⟨p, hp, rfl, h3⟩ := hsome i (by simpa using hi)
          obtain ⟨hpG, _⟩ := mem_variationsOf.1 hp
          exact ⟨p.1, hpG, rfl, (hl _ hpG).mid_iff.1 h3⟩
        refine ⟨?_, ?_, ?_⟩
        · intro e he
          rcases List.mem_append.1 he with he | he
          · rcases List.mem_append.1 he with he | he
            · obtain ⟨⟨q, hq, hqe⟩, a, b, c, d⟩ := iL.inside e he
              obtain ⟨p0, hp0, _, rfl⟩ := hmL q hq
              have aR : (B : ℝ) < e.2.1 := by exact_mod_cast a
              have bR : ((e.2.2 : ℚ) : ℝ) < (((B + E) / 2 : ℚ) : ℝ) := by exact_mod_cast b
              refine ⟨⟨p0, hp0, hqe⟩, a, b.trans hm2, c, fun p hp hne x hx1 hx2 hx => ?_⟩
              by_cases hr : p ∈ restOf G
              · exact d _ (hLmem p hr) hne x hx1 hx2 hx
              · have := hdrop p hp hr x (by linarith) (by linarith) hx
                linarith
            · obtain ⟨p0, hp0, rfl, hroot⟩ := hM e he
              refine ⟨⟨p0, hp0, rfl⟩, hm1, hm2, Or.inl ⟨rfl, hroot⟩, fun p hp hne x hx1 hx2 hx => ?_⟩
              simp only at hx1 hx2
              have : x = (((B + E) / 2 : ℚ) : ℝ) := le_antisymm hx2 hx1
              subst this
              exact hnc p hp p0 hp0 hne _ hx hroot
          · obtain ⟨⟨q, hq, hqe⟩, a, b, c, d⟩ := iR.inside e he
            obtain ⟨p0, hp0, _, rfl⟩ := hmR q hq
            have aR : (((B + E) / 2 : ℚ) : ℝ) < e.2.1 := by exact_mod_cast a
            have bR : ((e.2.2 : ℚ) : ℝ) < E := by exact_mod_cast b
            refine ⟨⟨p0, hp0, hqe⟩, hm1.trans a, b, c, fun p hp hne x hx1 hx2 hx => ?_⟩
            by_cases hr : p ∈ restOf G
            · exact d _ (hRmem p hr) hne x hx1 hx2 hx
            · have := hdrop p hp hr x (by linarith) (by linarith) hx
              linarith
        · rw [List.pairwise_append]
          refine ⟨?_, iR.sorted, ?_⟩
          · rw [List.pairwise_append]
            refine ⟨iL.sorted, ?_, ?_⟩
            · cases (midHit (variationsOf G)).1 <;> simp
            intro p hp q hq
            obtain ⟨_, _, rfl, _⟩ := hM q hq
            exact (iL.inside p hp).2.2.1
          · intro p hp q hq
            have hq1 := (iR.inside q hq).2.1
            rcases List.mem_append.1 hp with hp | hp
            · exact (iL.inside p hp).2.2.1.trans hq1
            · obtain ⟨_, _, rfl, _⟩ := hM p hp
              exact hq1
        · intro p hp x hx1 hx2 hx
          rcases lt_trichotomy x (((B + E) / 2 : ℚ) : ℝ) with hlt | heq | hgt
          · have hr : p ∈ restOf G := by
              by_contra hr
              exact absurd (hdrop p hp hr x hx1 hx2 hx) hlt.ne
            obtain ⟨e, he, h3⟩ := iL.complete _ (hLmem p hr) x hx1 hlt hx
            exact ⟨e, by simp [he], h3⟩
          · subst heq
            cases hhit : (midHit (variationsOf G)).1 with
            | none =>
              exfalso
              exact hnone hhit _ (mem_variationsOf.2 ⟨hp, rfl⟩ : (p, coeffSignChanges (oneToInf p.2)) ∈ variationsOf G) ((hl p hp).mid_iff.2 hx)
            | some i =>
              obtain ⟨q, hq, rfl, h3⟩ := hsome i hhit
              obtain ⟨hqG, _⟩ := mem_variationsOf.1 hq
              have hi : q.1.1 = p.1 := by
                by_contra hne
                exact hnc q.1 hqG p hp hne _ ((hl _ hqG).mid_iff.1 h3) hx
              refine ⟨(q.1.1, ((B + E) / 2, (B + E) / 2)), by simp, hi, le_rfl, le_rfl⟩
          · have hr : p ∈ restOf G := by
              by_contra hr
              exact absurd (hdrop p hp hr x hx1 hx2 hx) hgt.ne'
            obtain ⟨e, he, h3⟩ := iR.complete _ (hRmem p hr) x hgt hx2 hx
            exact ⟨e, by simp [he], h3⟩

theorem nodup_map_fst {G : List (Nat × UPoly ℤ)} (f : UPoly ℤ → UPoly ℤ) : ((restOf G).map fun p => (p.1, f p.2)).map Prod.fst = (restOf G).map Prod.fst := by
  simp [List.map_map, Function.comp_def]

theorem subUspM_step {n : Nat} {G : List (Nat × UPoly ℤ)} {B E : ℚ} (h0 : ¬ ((variationsOf G).filter fun p => decide (p.2 = 0)).length = G.length)
    (h1 : ¬ (((variationsOf G).filter fun p => decide (p.2 = 1)).length = 1 ∧ ((variationsOf G).filter fun p => decide (p.2 = 0)).length = G.length - 1))
    {l1 l2 : List (Nat × (ℚ × ℚ))} (hL : subUspM n ((restOf G).map fun p => (p.1, leftHalf p.2)) B ((B + E) / 2) = some l1)
    (hR : subUspM n ((restOf G).map fun p => (p.1, rightHalf p.2)) ((B + E) / 2) E = some l2) :
    ∃ l, subUspM (n + 1) G B E = some l := by
  unfold subUspM
  dsimp only
  rw [if_neg h0, if_neg h1]
  have hfold : ((midHit (variationsOf G)).2.filter fun p => decide (p.2 > 0)).map Prod.fst = restOf G := rfl
  rw [hfold, hL, hR]
  exact ⟨_, rfl⟩

theorem subUspM_done {G : List (Nat × UPoly ℤ)} {B E : ℚ} (hl : LocM Fs G B E)
    (hc : ((variationsOf G).filter fun p => decide (p.2 = 0)).length = G.length ∨
      (((variationsOf G).filter fun p => decide (p.2 = 1)).length = 1 ∧ ((variationsOf G).filter fun p => decide (p.2 = 0)).length = G.length - 1)) :
    ∃ N, ∀ fuel, N ≤ fuel → ∃ l, subUspM fuel G B E = some l := by
  by_cases h0 : ((variationsOf G).filter fun p => decide (p.2 = 0)).length = G.length
  · refine ⟨1, fun fuel hf => ?_⟩
    obtain ⟨fuel, rfl⟩ : ∃ m, fuel = m + 1 := ⟨fuel - 1, by omega⟩
    unfold subUspM
    dsimp only
    rw [if_pos h0]
    exact ⟨_, rfl⟩
  · have h1 := hc.resolve_left h0
    obtain ⟨q, hq⟩ := List.length_eq_one_iff.1 h1.1
    have hqm : q ∈ (variationsOf G).filter fun p => decide (p.2 = 1) := by rw [hq]; simp
    obtain ⟨hqv, hq1⟩ := List.mem_filter.1 hqm
    simp only [decide_eq_true_eq] at hq1
    have hfind : (variationsOf G).find? (fun p => decide (p.2 = 1)) = some q := by
      rw [← List.head?_filter, hq]; rfl
    obtain ⟨hqG, hqe⟩ := mem_variationsOf.1 hqv
    have hL := hl q.1 hqG
    have hv1 : vars (toPoly q.1.2) = 1 := by rw [← code_vars hL.canon, ← hqe]; exact hq1
    obtain ⟨N, hN⟩ := shrink_returns hL hv1
    refine ⟨N + 1, fun fuel hf => ?_⟩
    obtain ⟨fuel, rfl⟩ : ∃ m, fuel = m + 1 := ⟨fuel - 1, by omega⟩
    obtain ⟨x, hx⟩ := hN (fuel + 1) (by omega)
    unfold subUspM
    dsimp only
    rw [if_neg h0, if_pos h1, hfind]
    simp only
    rw [hx]
    exact ⟨_, rfl⟩

theorem filter_length_le_one {α : Type*} (P : α → Bool) : ∀ (l : List α), l.Pairwise (fun a b => ¬ (P a = true ∧ P b = true)) → (l.filter P).length ≤ 1 := by
  intro l
  induction l with
  | nil => simp
  | cons a l ih =>
    intro h
    obtain ⟨h1, h2⟩ := List.pairwise_cons.1 h
    rw [List.filter_cons]
    split
    · rename_i ha
      have : l.filter P = [] := by
        rw [List.filter_eq_nil_iff]
        intro b hb hPb
        exact h1 b hb ⟨ha, hPb⟩
      simp [this]
    · exact ih h2

theorem filter_sum {α : Type*} (P Q : α → Bool) (hd : ∀ a, P a = true → Q a = false) : ∀ (l : List α), (∀ a ∈ l, P a = true ∨ Q a = true) →
    (l.filter P).length + (l.filter Q).length = l.length := by
  intro l
  induction l with
  | nil => simp
  | cons a l ih =>
    intro h
    have := ih fun b hb => h b (List.mem_cons_of_mem _ hb)
    have ha := h a List.mem_cons_self
    rw [List.filter_cons, List.filter_cons]
    cases hP : P a <;> cases hQ : Q a <;> simp [hP, hQ] at ha ⊢ <;> try omega
    have := hd a hP; rw [hQ] at this; simp at this

/-- the small-interval hypotheses used for termination -/
structure Small (Fs : Nat → ℤ[X]) (G : List (Nat × UPoly ℤ)) (W : ℚ) (δ : ℝ) : Prop where
  var : ∀ p ∈ G, ∀ a h : ℝ, 0 ≤ a → a ≤ W → 0 < h → h ≤ δ → ∀ P, Sub (Fs p.1) a h P → vars P ≤ 1
  sep : ∀ p ∈ G, ∀ q ∈ G, p.1 ≠ q.1 → ∀ x y : ℝ, aeval x (Fs p.1) = 0 → aeval y (Fs q.1) = 0 → δ ≤ |x - y|

theorem subUspM_exists {W : ℚ} {δ : ℝ} : ∀ (n : Nat) {G : List (Nat × UPoly ℤ)} {B E : ℚ}, B < E → LocM Fs G B E → (G.map Prod.fst).Nodup →
    Small Fs G W δ → 0 ≤ B → E ≤ W → (E : ℝ) - B ≤ 2 ^ n * δ → ∃ N, ∀ fuel, N ≤ fuel → ∃ l, subUspM fuel G B E = some l := by
  intro n
  induction n with
  | zero =>
    intro G B E hBE hl hnd hsm hB hE hw
    rw [pow_zero, one_mul] at hw
    have hlen := variationsOf_length G
    have hv : ∀ p ∈ G, vars (toPoly p.2) ≤ 1 := fun p hp => by
      refine hsm.var p hp B ((E : ℝ) - B) (by exact_mod_cast hB) ?_ (hl p hp).ltR hw _ (hl p hp).sub
      have : B ≤ W := hBE.le.trans hE
      exact_mod_cast this
    apply subUspM_done hl
    have hall : ∀ q ∈ variationsOf G, (decide (q.2 = 0)) = true ∨ (decide (q.2 = 1)) = true := by
      intro q hq
      obtain ⟨hqG, hqe⟩ := mem_variationsOf.1 hq
      have := hv _ hqG
      rw [← code_vars (hl _ hqG).canon, ← hqe] at this
      simp; omega
    have hsum := filter_sum (fun p : (Nat × UPoly ℤ) × Nat => decide (p.2 = 0)) (fun p => decide (p.2 = 1)) (by intro a ha; simp at *; omega) _ hall
    have hpw : (variationsOf G).Pairwise fun a b => a.1.1 ≠ b.1.1 := by
      have h1 : G.Pairwise fun a b => a.1 ≠ b.1 := by
        have := hnd
        rw [List.Nodup, List.pairwise_map] at this
        exact this
      unfold variationsOf
      rw [List.pairwise_map]
      exact h1
    have hone : ((variationsOf G).filter fun p => decide (p.2 = 1)).length ≤ 1 := by
      apply filter_length_le_one
      refine hpw.imp_of_mem ?_
      intro a b ha hb hne
      rintro ⟨h1, h2⟩
      simp only [decide_eq_true_eq] at h1 h2
      obtain ⟨haG, hae⟩ := mem_variationsOf.1 ha
      obtain ⟨hbG, hbe⟩ := mem_variationsOf.1 hb
      have hLa := hl _ haG
      have hLb := hl _ hbG
      obtain ⟨x, hx1, hx2, hx⟩ := hLa.exists_root (by rw [← code_vars hLa.canon, ← hae]; exact h1)
      obtain ⟨y, hy1, hy2, hy⟩ := hLb.exists_root (by rw [← code_vars hLb.canon, ← hbe]; exact h2)
      have h3 := hsm.sep _ haG _ hbG hne x y hx hy
      have h4 : |x - y| < (E : ℝ) - B := by rw [abs_lt]; constructor <;> linarith
      linarith
    rw [hlen] at hsum
    omega
  | succ n ih =>
    intro G B E hBE hl hnd hsm hB hE hw
    by_cases h0 : ((variationsOf G).filter fun p => decide (p.2 = 0)).length = G.length
    · exact subUspM_done hl (Or.inl h0)
    by_cases h1 : (((variationsOf G).filter fun p => decide (p.2 = 1)).length = 1 ∧ ((variationsOf G).filter fun p => decide (p.2 = 0)).length = G.length - 1)
    · exact subUspM_done hl (Or.inr h1)
    rw [pow_succ] at hw
    have hsub := restOf_sublist G
    have hmem : ∀ (f : UPoly ℤ → UPoly ℤ), ∀ q ∈ (restOf G).map fun p => (p.1, f p.2), ∃ p ∈ G, q = (p.1, f p.2) := by
      intro f q hq
      obtain ⟨p, hp, rfl⟩ := List.mem_map.1 hq
      exact ⟨p, hsub.subset hp, rfl⟩
    have hnd' : ∀ f : UPoly ℤ → UPoly ℤ, (((restOf G).map fun p => (p.1, f p.2)).map Prod.fst).Nodup := by
      intro f
      rw [nodup_map_fst]
      exact (hsub.map Prod.fst).nodup hnd
    have hsm' : ∀ f : UPoly ℤ → UPoly ℤ, Small Fs ((restOf G).map fun p => (p.1, f p.2)) W δ := by
      intro f
      refine ⟨fun q hq => ?_, fun q hq q' hq' => ?_⟩
      · obtain ⟨p, hp, rfl⟩ := hmem f q hq
        exact hsm.var p hp
      · obtain ⟨p, hp, rfl⟩ := hmem f q hq
        obtain ⟨p', hp', rfl⟩ := hmem f q' hq'
        exact hsm.sep p hp p' hp'
    obtain ⟨N1, hN1⟩ := ih (show B < (B + E) / 2 by linarith) (fun q hq => by
      obtain ⟨p, hp, rfl⟩ := hmem leftHalf q hq
      exact (hl p hp).left) (hnd' _) (hsm' _) hB (by linarith) (by push_cast; linarith)
    obtain ⟨N2, hN2⟩ := ih (show (B + E) / 2 < E by linarith) (fun q hq => by
      obtain ⟨p, hp, rfl⟩ := hmem rightHalf q hq
      exact (hl p hp).right) (hnd' _) (hsm' _) (by linarith) hE (by push_cast; linarith)
    refine ⟨max N1 N2 + 1, fun fuel hf => ?_⟩
    obtain ⟨fuel, rfl⟩ : ∃ m, fuel = m + 1 := ⟨fuel - 1, by omega⟩
    obtain ⟨l1, h1'⟩ := hN1 fuel (by omega)
    obtain ⟨l2, h2'⟩ := hN2 fuel (by omega)
    exact subUspM_step h0 h1 h1' h2'

end

theorem finite_sep (S : Finset ℝ) : ∃ δ : ℝ, 0 < δ ∧ ∀ x ∈ S, ∀ y ∈ S, x ≠ y → δ ≤ |x - y| := by
  classical
  obtain ⟨T, hT⟩ : ∃ T : Finset (ℝ × ℝ), T = (S ×ˢ S).filter fun p => p.1 ≠ p.2 := ⟨_, rfl⟩
  by_cases hne : T.Nonempty
  · obtain ⟨p, hp, hmin⟩ := T.exists_min_image (fun p => |p.1 - p.2|) hne
    have hp2 : p.1 ≠ p.2 := by rw [hT] at hp; exact (Finset.mem_filter.1 hp).2
    refine ⟨|p.1 - p.2|, abs_pos.2 (sub_ne_zero.2 hp2), fun x hx y hy hxy => ?_⟩
    exact hmin (x, y) (by rw [hT]; exact Finset.mem_filter.2 ⟨Finset.mem_product.2 ⟨hx, hy⟩, hxy⟩)
  · refine ⟨1, one_pos, fun x hx y hy hxy => ?_⟩
    exact absurd ⟨(x, y), by rw [hT]; exact Finset.mem_filter.2 ⟨Finset.mem_product.2 ⟨hx, hy⟩, hxy⟩⟩ hne

theorem sub_small {F : ℤ[X]} {W δ δ' : ℝ} (h : ∀ a h : ℝ, 0 ≤ a → a ≤ W → 0 < h → h ≤ δ → ∀ G, Sub F a h G → vars G ≤ 1) (hd : δ' ≤ δ) :
    ∀ a h : ℝ, 0 ≤ a → a ≤ W → 0 < h → h ≤ δ' → ∀ G, Sub F a h G → vars G ≤ 1 :=
  fun a k h1 h2 h3 h4 => h a k h1 h2 h3 (h4.trans hd)

theorem exists_small (Fs : Nat → ℤ[X]) (W : ℚ) (hW : 0 ≤ W) : ∀ (G : List (Nat × UPoly ℤ)),
    (∀ p ∈ G, ∀ x : ℝ, aeval x (Fs p.1) = 0 → aeval x (Polynomial.derivative (Fs p.1)) ≠ 0) →
    ∃ δ : ℝ, 0 < δ ∧ ∀ p ∈ G, ∀ a h : ℝ, 0 ≤ a → a ≤ W → 0 < h → h ≤ δ → ∀ P, Sub (Fs p.1) a h P → vars P ≤ 1 := by
  intro G
  induction G with
  | nil => intro _; exact ⟨1, one_pos, by simp⟩
  | cons p G ih =>
    intro h
    obtain ⟨δ1, h1, h2⟩ := ih fun q hq => h q (List.mem_cons_of_mem _ hq)
    obtain ⟨δ2, h3, h4⟩ := eventually_small (Fs p.1) W (by exact_mod_cast hW) (fun x _ _ hx => h p List.mem_cons_self x hx)
    refine ⟨min δ1 δ2, lt_min h1 h3, fun q hq => ?_⟩
    rcases List.mem_cons.1 hq with rfl | hq
    · exact sub_small h4 (min_le_right _ _)
    · exact sub_small (h2 q hq) (min_le_left _ _)

theorem subUspM_returns {Fs : Nat → ℤ[X]} {G : List (Nat × UPoly ℤ)} {E : ℚ} (hE : 0 < E) (hl : LocM Fs G 0 E) (hnd : (G.map Prod.fst).Nodup)
    (hnc : NoCommon Fs G) (hF : ∀ p ∈ G, ∀ x : ℝ, aeval x (Fs p.1) = 0 → aeval x (Polynomial.derivative (Fs p.1)) ≠ 0) :
    ∃ N, ∀ fuel, N ≤ fuel → ∃ l, subUspM fuel G 0 E = some l := by
  classical
  obtain ⟨δ1, h1, h2⟩ := exists_small Fs E hE.le G hF
  obtain ⟨S, hS⟩ : ∃ S : Finset ℝ, S = (G.toFinset.biUnion fun p => ((Fs p.1).map (Int.castRingHom ℝ)).roots.toFinset) := ⟨_, rfl⟩
  obtain ⟨δ2, h3, h4⟩ := finite_sep S
  have hmem : ∀ p ∈ G, ∀ x : ℝ, aeval x (Fs p.1) = 0 → x ∈ S := by
    intro p hp x hx
    rw [hS, Finset.mem_biUnion]
    refine ⟨p, by simpa using hp, ?_⟩
    rw [Multiset.mem_toFinset, mem_roots', IsRoot.def, eval_map]
    refine ⟨?_, by simpa [aeval_def] using hx⟩
    exact (Polynomial.map_ne_zero_iff Int.cast_injective).2 (hl p hp).ne
  obtain ⟨δ, hδ⟩ : ∃ δ, δ = min δ1 δ2 := ⟨_, rfl⟩
  have hδ0 : 0 < δ := by rw [hδ]; exact lt_min h1 h3
  have hsm : Small Fs G E δ := by
    refine ⟨fun p hp => sub_small (h2 p hp) (hδ ▸ min_le_left _ _), fun p hp q hq hne x y hx hy => ?_⟩
    have hxy : x ≠ y := by
      rintro rfl
      exact hnc p hp q hq hne x hx hy
    exact (hδ ▸ min_le_right _ _ : δ ≤ δ2).trans (h4 x (hmem p hp x hx) y (hmem q hq y hy) hxy)
  obtain ⟨n, hn⟩ := pow_unbounded_of_one_lt ((E : ℝ) / δ) one_lt_two
  rw [div_lt_iff₀ hδ0] at hn
  exact subUspM_exists n hE hl hnd hsm le_rfl le_rfl (by push_cast; linarith)

/-! ### `uspensky` for a list -/

/-- what a caller gets: entries `(i, [a, b])`; the polynomial `gs[i]` has exactly one root in `[a, b]`, the others have none there; the entries are
in increasing order and disjoint; every real root of a non-constant polynomial of the list is covered by an entry with its index -/
structure IsolationM (gs : List (UPoly ℤ)) (l : List (Nat × (ℚ × ℚ))) : Prop where
  each : ∀ e ∈ l, ∃ g, gs[e.1]? = some g ∧ IsoAt (toPoly g) e.2
  others : ∀ e ∈ l, ∀ j h, gs[j]? = some h → toPoly h ≠ 0 → j ≠ e.1 → ∀ x : ℝ, (e.2.1 : ℝ) ≤ x → x ≤ e.2.2 → aeval x (toPoly h) ≠ 0
  sorted : l.Pairwise fun e e' => e.2.2 < e'.2.1
  complete : ∀ j g, gs[j]? = some g → toPoly g ≠ 0 → ∀ x : ℝ, aeval x (toPoly g) = 0 → ∃ e ∈ l, e.1 = j ∧ (e.2.1 : ℝ) ≤ x ∧ x ≤ e.2.2

/-- the non-constant polynomials with their indices -/
def Gsof (G : List (UPoly ℤ)) : List (Nat × UPoly ℤ) := ((List.range G.length).zip G).filter fun p => !isNumber p.2

theorem mem_zip_range {G : List (UPoly ℤ)} {p : Nat × UPoly ℤ} : p ∈ (List.range G.length).zip G ↔ G[p.1]? = some p.2 := by
  rw [List.mem_iff_getElem?]
  constructor
  · rintro ⟨i, hi⟩
    rw [List.getElem?_zip_eq_some] at hi
    obtain ⟨h1, h2⟩ := hi
    have h3 : i < G.length := by
      by_contra hc
      rw [List.getElem?_eq_none (by simpa using hc)] at h1
      simp at h1
    rw [List.getElem?_range h3] at h1
    simp only [Option.some.injEq] at h1
    rw [← h1]; exact h2
  · intro h
    have h3 : p.1 < G.length := by
      by_contra hc
      rw [List.getElem?_eq_none (by simpa using hc)] at h
      simp at h
    refine ⟨p.1, ?_⟩
    rw [List.getElem?_zip_eq_some]
    exact ⟨List.getElem?_range h3, h⟩

theorem mem_Gsof {G : List (UPoly ℤ)} {p : Nat × UPoly ℤ} : p ∈ Gsof G ↔ G[p.1]? = some p.2 ∧ isNumber p.2 = false := by
  unfold Gsof
  rw [List.mem_filter, mem_zip_range]
  simp

theorem Gsof_nodup (G : List (UPoly ℤ)) : ((Gsof G).map Prod.fst).Nodup := by
  have h1 : (((List.range G.length).zip G).map Prod.fst).Nodup := by
    rw [List.map_fst_zip (by simp)]
    exact List.nodup_range
  exact (List.filter_sublist.map Prod.fst).nodup h1

theorem maxBound_ge (G : List (Nat × UPoly ℤ)) : 0 ≤ maxBound G ∧ ∀ p ∈ G, rootBound p.2 ≤ maxBound G := by
  have key : ∀ (G : List (Nat × UPoly ℤ)) (b : ℤ), b ≤ G.foldl (fun B p => if rootBound p.2 > B then rootBound p.2 else B) b ∧
      ∀ p ∈ G, rootBound p.2 ≤ G.foldl (fun B p => if rootBound p.2 > B then rootBound p.2 else B) b := by
    intro G
    induction G with
    | nil => intro b; simp
    | cons t l ih =>
      intro b
      rw [List.foldl_cons]
      obtain ⟨h1, h2⟩ := ih (if rootBound t.2 > b then rootBound t.2 else b)
      have h3 : b ≤ (if rootBound t.2 > b then rootBound t.2 else b) := by split <;> omega
      have h4 : rootBound t.2 ≤ (if rootBound t.2 > b then rootBound t.2 else b) := by split <;> omega
      refine ⟨h3.trans h1, fun u hu => ?_⟩
      rcases List.mem_cons.1 hu with rfl | hu
      · exact h4.trans h1
      · exact h2 u hu
  exact key G 0

theorem isNumber_root {g : UPoly ℤ} (hc : Canon comp g) (h : isNumber g = true) (h0 : toPoly g ≠ 0) (x : ℝ) : aeval x (toPoly g) ≠ 0 := by
  unfold isNumber at h
  simp only [decide_eq_true_eq] at h
  have hg := is_of_canon hc
  rcases h with h | h
  · exact absurd ((is_nil_iff hg).1 h) h0
  · rw [is_deg hg] at h
    rw [eq_C_of_natDegree_eq_zero h, aeval_C]
    intro hc
    have : (toPoly g).coeff 0 = 0 := by simpa using hc
    exact h0 (by rw [eq_C_of_natDegree_eq_zero h, this]; simp)

theorem isNumber_ne {g : UPoly ℤ} (hc : Canon comp g) (h : isNumber g = false) : g ≠ [] ∧ toPoly g ≠ 0 := by
  unfold isNumber at h
  simp only [decide_eq_false_iff_not] at h
  push Not at h
  exact ⟨h.1, fun h0 => h.1 ((is_nil_iff (is_of_canon hc)).2 h0)⟩

section
variable {gs : List (UPoly ℤ)}

/-- the family of polynomials behind the indices -/
noncomputable def fam (gs : List (UPoly ℤ)) (i : Nat) : ℤ[X] := toPoly (gs.getD i [])

theorem fam_eq {i : Nat} {g : UPoly ℤ} (h : gs[i]? = some g) : fam gs i = toPoly g := by simp [fam, h]

/-- no two polynomials of the list have a common real root (implied by coprimality over ℚ) -/
def Coprimes (gs : List (UPoly ℤ)) : Prop :=
  ∀ (i j : Nat) (g h : UPoly ℤ), gs[i]? = some g → gs[j]? = some h → i ≠ j → toPoly h ≠ 0 → ∀ x : ℝ, aeval x (toPoly g) = 0 → aeval x (toPoly h) ≠ 0

theorem locPos (hc : ∀ g ∈ gs, Canon comp g) {R : ℤ} (hR : 0 < R) : LocM (fam gs) ((Gsof gs).map fun p => (p.1, bTo1 p.2 R)) 0 R := by
  intro q hq
  obtain ⟨p, hp, rfl⟩ := List.mem_map.1 hq
  obtain ⟨h1, h2⟩ := mem_Gsof.1 hp
  have hcg := hc _ (List.mem_of_getElem? h1)
  simp only
  rw [fam_eq h1]
  exact Loc.pos (is_of_canon hcg) (isNumber_ne hcg h2).2 hR

theorem locNeg (hc : ∀ g ∈ gs, Canon comp g) {R : ℤ} (hR : 0 < R) :
    LocM (fun i => (fam gs i).comp (-X)) ((Gsof gs).map fun p => (p.1, bTo1 p.2 (-R))) 0 R := by
  intro q hq
  obtain ⟨p, hp, rfl⟩ := List.mem_map.1 hq
  obtain ⟨h1, h2⟩ := mem_Gsof.1 hp
  have hcg := hc _ (List.mem_of_getElem? h1)
  simp only
  rw [fam_eq h1]
  exact Loc.neg (is_of_canon hcg) (isNumber_ne hcg h2).2 hR

theorem ncPos (hc : ∀ g ∈ gs, Canon comp g) (hco : Coprimes gs) (f : UPoly ℤ → UPoly ℤ) : NoCommon (fam gs) ((Gsof gs).map fun p => (p.1, f p.2)) := by
  intro q hq q' hq' hne x hx
  obtain ⟨p, hp, rfl⟩ := List.mem_map.1 hq
  obtain ⟨p', hp', rfl⟩ := List.mem_map.1 hq'
  obtain ⟨h1, h2⟩ := mem_Gsof.1 hp
  obtain ⟨h1', h2'⟩ := mem_Gsof.1 hp'
  simp only at hx ⊢
  rw [fam_eq h1] at hx
  rw [fam_eq h1']
  exact hco _ _ _ _ h1 h1' hne (isNumber_ne (hc _ (List.mem_of_getElem? h1')) h2').2 x hx

theorem ncNeg (hc : ∀ g ∈ gs, Canon comp g) (hco : Coprimes gs) (f : UPoly ℤ → UPoly ℤ) :
    NoCommon (fun i => (fam gs i).comp (-X)) ((Gsof gs).map fun p => (p.1, f p.2)) := by
  intro q hq q' hq' hne x hx
  rw [aeval_neg_comp] at hx ⊢
  exact ncPos hc hco f q hq q' hq' hne (-x) hx

theorem zeroHit_spec {G : List (Nat × UPoly ℤ)} : (∀ e ∈ zeroHit G, e.2 = (0, 0) ∧ ∃ p ∈ G, p.1 = e.1 ∧ aeval (0 : ℝ) (toPoly p.2) = 0) ∧
    (∀ p ∈ G, aeval (0 : ℝ) (toPoly p.2) = 0 → ∃ i, zeroHit G = [(i, (0, 0))] ∧ ∃ q ∈ G, q.1 = i ∧ aeval (0 : ℝ) (toPoly q.2) = 0) ∧ (zeroHit G).length ≤ 1 := by
  unfold zeroHit
  have h0 : ∀ g : UPoly ℤ, assignQ g 0 = 0 ↔ aeval (0 : ℝ) (toPoly g) = 0 := by
    intro g; rw [assignQ_zero_iff]; norm_num
  cases hf : G.find? fun p => decide (assignQ p.2 0 = 0) with
  | none =>
    refine ⟨by simp, fun p hp hx => ?_, by simp⟩
    have := List.find?_eq_none.1 hf p hp
    simp only [decide_eq_true_eq] at this
    exact absurd ((h0 _).2 hx) this
  | some p =>
    have h1 := List.find?_some hf
    simp only [decide_eq_true_eq] at h1
    have h2 := List.mem_of_find?_eq_some hf
    rw [h0] at h1
    refine ⟨?_, fun q hq hx => ⟨p.1, rfl, p, h2, rfl, h1⟩, by simp⟩
    intro e he
    simp only [List.mem_singleton] at he
    subst he
    exact ⟨rfl, p, h2, rfl, h1⟩

theorem uspenskyM_spec (hc : ∀ g ∈ gs, Canon comp g) (hco : Coprimes gs) {fuel : Nat} {l : List (Nat × (ℚ × ℚ))} (h : uspenskyM fuel gs = some l) :
    IsolationM gs l := by
  unfold uspenskyM at h
  dsimp only at h
  have hfold : (((List.range gs.length).zip gs).filter fun p => !isNumber p.2) = Gsof gs := rfl
  rw [hfold] at h
  -- roots exist only for the polynomials in `Gsof`
  have hin : ∀ j g, gs[j]? = some g → toPoly g ≠ 0 → ∀ x : ℝ, aeval x (toPoly g) = 0 → (j, g) ∈ Gsof gs := by
    intro j g hj h0 x hx
    refine mem_Gsof.2 ⟨hj, ?_⟩
    by_contra hn
    exact isNumber_root (hc g (List.mem_of_getElem? hj)) (by simpa using hn) h0 x hx
  by_cases hemp : Gsof gs = []
  · rw [if_pos hemp] at h
    simp only [Option.some.injEq] at h
    subst h
    refine ⟨by simp, by simp, by simp, fun j g hj h0 x hx => ?_⟩
    have := hin j g hj h0 x hx
    rw [hemp] at this; simp at this
  rw [if_neg hemp] at h
  obtain ⟨R, hR⟩ : ∃ R, R = maxBound (Gsof gs) := ⟨_, rfl⟩
  rw [← hR] at h
  have hRb := (maxBound_ge (Gsof gs)).2
  rw [← hR] at hRb
  have hbd : ∀ j g, (j, g) ∈ Gsof gs → 3 ≤ R ∧ ∀ x : ℝ, aeval x (toPoly g) = 0 → |x| < R := by
    intro j g hp
    obtain ⟨h1, h2⟩ := mem_Gsof.1 hp
    have hcg := hc _ (List.mem_of_getElem? h1)
    obtain ⟨h3, _, h4⟩ := rootBound_spec hcg (isNumber_ne hcg h2).1
    have h5 := hRb _ hp
    simp only at h5
    refine ⟨h3.trans h5, fun x hx => lt_of_lt_of_le (h4 x hx) (by exact_mod_cast h5)⟩
  have hRpos : 0 < R := by
    obtain ⟨p, hp⟩ := List.exists_mem_of_ne_nil _ hemp
    have := (hbd p.1 p.2 hp).1
    omega
  cases hL : subUspM fuel ((Gsof gs).map fun p => (p.1, bTo1 p.2 (-R))) 0 R with
  | none => rw [hL] at h; simp at h
  | some l1 =>
    cases hR' : subUspM fuel ((Gsof gs).map fun p => (p.1, bTo1 p.2 R)) 0 R with
    | none => rw [hL, hR'] at h; simp at h
    | some l2 =>
      rw [hL, hR'] at h
      simp only [Option.some.injEq] at h
      have hR0 : (0 : ℚ) < R := by exact_mod_cast hRpos
      have i1 := subUspM_spec fuel hR0 (locNeg hc hRpos) (ncNeg hc hco (fun g => bTo1 g (-R))) hL
      have i2 := subUspM_spec fuel hR0 (locPos hc hRpos) (ncPos hc hco (fun g => bTo1 g R)) hR'
      obtain ⟨z1, z2, z3⟩ := zeroHit_spec (G := Gsof gs)
      -- the members of the three parts
      have hidx : ∀ (f : UPoly ℤ → UPoly ℤ) (q : Nat × UPoly ℤ), q ∈ (Gsof gs).map (fun p => (p.1, f p.2)) → ∃ p ∈ Gsof gs, q = (p.1, f p.2) := by
        intro f q hq
        obtain ⟨p, hp, rfl⟩ := List.mem_map.1 hq
        exact ⟨p, hp, rfl⟩
      have hM1 : ∀ e ∈ l1.reverse.map (fun i => (i.1, (-i.2.2, -i.2.1))), ∃ q ∈ l1, e = (q.1, (-q.2.2, -q.2.1)) := by
        intro e he
        obtain ⟨q, hq, rfl⟩ := List.mem_map.1 he
        exact ⟨q, List.mem_reverse.1 hq, rfl⟩
      subst h
      refine ⟨?_, ?_, ?_, ?_⟩
      · intro e he
        rcases List.mem_append.1 he with he | he
        · rcases List.mem_append.1 he with he | he
          · obtain ⟨q, hq, rfl⟩ := hM1 e he
            obtain ⟨⟨p, hp, hpe⟩, _, _, h4, _⟩ := i1.inside q hq
            obtain ⟨p0, hp0, rfl⟩ := hidx (fun g => bTo1 g (-R)) p hp
            obtain ⟨h5, _⟩ := mem_Gsof.1 hp0
            simp only at hpe
            rw [hpe] at h5
            refine ⟨p0.2, h5, ?_⟩
            have := h4.neg
            rw [fam_eq h5] at this
            exact this
          · obtain ⟨h4, p, hp, hpe, h5⟩ := z1 e he
            obtain ⟨h6, _⟩ := mem_Gsof.1 hp
            rw [hpe] at h6
            refine ⟨p.2, h6, Or.inl ?_⟩
            rw [h4]
            exact ⟨rfl, by simpa using h5⟩
        · obtain ⟨⟨p, hp, hpe⟩, _, _, h4, _⟩ := i2.inside e he
          obtain ⟨p0, hp0, rfl⟩ := hidx (fun g => bTo1 g R) p hp
          obtain ⟨h5, _⟩ := mem_Gsof.1 hp0
          simp only at hpe
          rw [hpe] at h5
          refine ⟨p0.2, h5, ?_⟩
          rw [fam_eq h5] at h4
          exact h4
      · intro e he j g hj hg0 hne x hx1 hx2 hx
        have hjG := hin j g hj hg0 x hx
        rcases List.mem_append.1 he with he | he
        · rcases List.mem_append.1 he with he | he
          · obtain ⟨q, hq, rfl⟩ := hM1 e he
            obtain ⟨_, _, _, _, h4⟩ := i1.inside q hq
            simp only at hne hx1 hx2
            push_cast at hx1 hx2
            refine h4 (j, bTo1 g (-R)) (List.mem_map.2 ⟨(j, g), hjG, rfl⟩) hne (-x) (by linarith) (by linarith) ?_
            rw [aeval_neg_comp, neg_neg]
            show aeval x (fam gs j) = 0
            rw [fam_eq hj]; exact hx
          · obtain ⟨h4, p, hp, hpe, h5⟩ := z1 e he
            rw [h4] at hx1 hx2
            have hx0 : x = 0 := le_antisymm (by simpa using hx2) (by simpa using hx1)
            subst hx0
            obtain ⟨h6, _⟩ := mem_Gsof.1 hp
            exact hco p.1 j p.2 g h6 hj (by rw [hpe]; exact fun h => hne h.symm) hg0 0 h5 hx
        · obtain ⟨_, _, _, _, h4⟩ := i2.inside e he
          refine h4 (j, bTo1 g R) (List.mem_map.2 ⟨(j, g), hjG, rfl⟩) hne x hx1 hx2 ?_
          show aeval x (fam gs j) = 0
          rw [fam_eq hj]; exact hx
      · have hneg : ∀ e ∈ l1.reverse.map (fun i => (i.1, (-i.2.2, -i.2.1))), e.2.2 < 0 := by
          intro e he
          obtain ⟨q, hq, rfl⟩ := hM1 e he
          have := (i1.inside q hq).2.1
          simp only
          linarith
        rw [List.pairwise_append]
        refine ⟨?_, i2.sorted, ?_⟩
        · rw [List.pairwise_append]
          refine ⟨?_, ?_, ?_⟩
          · rw [List.pairwise_map, List.pairwise_reverse]
            refine i1.sorted.imp ?_
            intro a b hab
            simpa using hab
          · rcases hz : zeroHit (Gsof gs) with _ | ⟨a, _ | ⟨b, m⟩⟩
            · simp
            · simp
            · rw [hz] at z3; simp at z3
          · intro p hp q hq
            rw [(z1 q hq).1]
            exact hneg p hp
        · intro p hp q hq
          have hq1 := (i2.inside q hq).2.1
          rcases List.mem_append.1 hp with hp | hp
          · exact (hneg p hp).trans hq1
          · rw [(z1 p hp).1]; exact hq1
      · intro j g hj hg0 x hx
        have hjG := hin j g hj hg0 x hx
        have hb := (hbd j g hjG).2 x hx
        rcases lt_trichotomy x 0 with hneg | rfl | hp
        · obtain ⟨q, hq, h4, h5, h6⟩ := i1.complete (j, bTo1 g (-R)) (List.mem_map.2 ⟨(j, g), hjG, rfl⟩) (-x) (by simpa using hneg)
            (by rw [abs_of_neg hneg] at hb; exact_mod_cast hb) (by rw [aeval_neg_comp, neg_neg]; show aeval x (fam gs j) = 0; rw [fam_eq hj]; exact hx)
          refine ⟨(q.1, (-q.2.2, -q.2.1)), List.mem_append_left _ (List.mem_append_left _ ?_), h4, by push_cast; linarith, by push_cast; linarith⟩
          exact List.mem_map.2 ⟨q, List.mem_reverse.2 hq, rfl⟩
        · obtain ⟨i, hi, q, hq, hqi, hq0⟩ := z2 _ hjG hx
          refine ⟨(i, (0, 0)), List.mem_append_left _ (List.mem_append_right _ (by rw [hi]; simp)), ?_, by simp, by simp⟩
          by_contra hne
          simp only at hne
          obtain ⟨h6, _⟩ := mem_Gsof.1 hq
          exact hco q.1 j q.2 g h6 hj (by rw [hqi]; exact hne) hg0 0 hq0 hx
        · obtain ⟨q, hq, h4⟩ := i2.complete (j, bTo1 g R) (List.mem_map.2 ⟨(j, g), hjG, rfl⟩) x (by simpa using hp)
            (by rw [abs_of_pos hp] at hb; exact_mod_cast hb) (by show aeval x (fam gs j) = 0; rw [fam_eq hj]; exact hx)
          exact ⟨q, List.mem_append_right _ hq, h4⟩

theorem uspenskyM_returns (hc : ∀ g ∈ gs, Canon comp g) (hco : Coprimes gs)
    (hF : ∀ g ∈ gs, ∀ x : ℝ, toPoly g ≠ 0 → aeval x (toPoly g) = 0 → aeval x (Polynomial.derivative (toPoly g)) ≠ 0) :
    ∃ N, ∀ fuel, N ≤ fuel → ∃ l, uspenskyM fuel gs = some l := by
  have hfold : (((List.range gs.length).zip gs).filter fun p => !isNumber p.2) = Gsof gs := rfl
  by_cases hemp : Gsof gs = []
  · exact ⟨0, fun fuel _ => ⟨[], by unfold uspenskyM; dsimp only; rw [hfold, if_pos hemp]⟩⟩
  obtain ⟨R, hR⟩ : ∃ R, R = maxBound (Gsof gs) := ⟨_, rfl⟩
  have hRpos : 0 < R := by
    obtain ⟨p, hp⟩ := List.exists_mem_of_ne_nil _ hemp
    obtain ⟨h1, h2⟩ := mem_Gsof.1 hp
    have hcg := hc _ (List.mem_of_getElem? h1)
    obtain ⟨h3, _, h4⟩ := rootBound_spec hcg (isNumber_ne hcg h2).1
    have h5 := (maxBound_ge (Gsof gs)).2 _ hp
    omega
  have hR0 : (0 : ℚ) < R := by exact_mod_cast hRpos
  have hnd : ∀ f : UPoly ℤ → UPoly ℤ, (((Gsof gs).map fun p => (p.1, f p.2)).map Prod.fst).Nodup := by
    intro f
    have e : ((Gsof gs).map fun p => (p.1, f p.2)).map Prod.fst = (Gsof gs).map Prod.fst := by simp [List.map_map, Function.comp_def]
    rw [e]; exact Gsof_nodup gs
  obtain ⟨N1, hN1⟩ := subUspM_returns hR0 (locNeg hc hRpos) (hnd (fun g => bTo1 g (-R))) (ncNeg hc hco (fun g => bTo1 g (-R))) (fun q hq x hx => by
    obtain ⟨p, hp, rfl⟩ := List.mem_map.1 hq
    obtain ⟨h1, h2⟩ := mem_Gsof.1 hp
    have hm := List.mem_of_getElem? h1
    simp only at hx ⊢
    rw [aeval_neg_comp, fam_eq h1] at hx
    have := hF _ hm _ (isNumber_ne (hc _ hm) h2).2 hx
    rw [fam_eq h1, derivative_comp, map_mul, aeval_neg_comp]
    simpa using this)
  obtain ⟨N2, hN2⟩ := subUspM_returns hR0 (locPos hc hRpos) (hnd (fun g => bTo1 g R)) (ncPos hc hco (fun g => bTo1 g R)) (fun q hq x hx => by
    obtain ⟨p, hp, rfl⟩ := List.mem_map.1 hq
    obtain ⟨h1, h2⟩ := mem_Gsof.1 hp
    have hm := List.mem_of_getElem? h1
    simp only at hx ⊢
    rw [fam_eq h1] at hx ⊢
    exact hF _ hm _ (isNumber_ne (hc _ hm) h2).2 hx)
  refine ⟨max N1 N2, fun fuel hf => ?_⟩
  obtain ⟨l1, h1⟩ := hN1 fuel (by omega)
  obtain ⟨l2, h2⟩ := hN2 fuel (by omega)
  refine ⟨(l1.reverse.map fun i => (i.1, (-i.2.2, -i.2.1))) ++ zeroHit (Gsof gs) ++ l2, ?_⟩
  unfold uspenskyM
  dsimp only
  rw [hfold, if_neg hemp, ← hR, h1, h2]

end

end Upoly
end CLPoly
