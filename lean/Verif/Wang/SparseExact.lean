import Verif.Wang.LiftComplete
import Verif.Lift.Vdm
import Verif.Lift.Theta

/-! # Sparse interpolation: what is returned is the solution -/

namespace CLPoly
namespace Mtshl
open Mono Mgcd Run Upoly Factor Lift Wang Charset MvPolynomial

section
variable {R : Type} [DecidableEq R] [Field R]

theorem mdpLoop_nil : ∀ {fs : List (UPoly R)} {g : UPoly R} {s r : List (UPoly R)}, [] ∈ fs → mdpLoop g s fs ≠ some (some r)
  | [], _, _, _, h => by simp at h
  | f :: fs, g, s, r, h => by
    unfold mdpLoop
    intro e
    obtain ⟨x, hx, e⟩ := Option.bind_eq_some_iff.1 e
    split at e
    · cases e
    · rcases List.mem_cons.1 h with h | h
      · rw [extGcd, if_pos (Or.inr h.symm)] at hx
        cases hx
      · exact mdpLoop_nil h e

/-- the results are of smaller degree, for all arguments -/
theorem univarMdp_small {f : List (UPoly R)} {F : List (Polynomial R)} {c : UPoly R} {C : Polynomial R} (hf : List.Forall₂ Is f F) (hc : Is c C) {r : List (UPoly R)} (e : univarMdp f c = some (some r)) :
    List.Forall₂ (fun s G => ∃ P, Is s P ∧ (P = 0 ∨ P.degree < G.degree)) r F := by
  by_cases h2 : F.length < 2
  · exfalso
    match f, F, hf, h2 with
    | [], _, _, _ => simp [univarMdp] at e
    | [f0], _, _, _ => simp [univarMdp] at e
    | f0 :: f1 :: fs, F, hf, h2 => have := hf.length_eq; simp at this; omega
  by_cases h0 : ∀ G ∈ F, G ≠ 0
  · obtain ⟨k1, k2⟩ := univarMdp_spec hf (by omega) h0 hc
    by_cases hcop : Lift.Cop F ∨ C = 0
    · obtain ⟨r', P, e1, e2, e3, e4, -⟩ := k1 hcop
      rw [e1] at e
      cases e
      refine List.forall₂_iff_get.2 ⟨e2.length_eq.trans e3, fun i h1 h2 => ⟨P[i]'(by omega), (List.forall₂_iff_get.1 e2).2 i h1 (by omega), Or.inr ?_⟩⟩
      refine e4 (P[i]'(by omega), F[i]) ?_
      have : (List.zip P F)[i]'(by rw [List.length_zip]; omega) = (P[i]'(by omega), F[i]) := List.getElem_zip
      rw [← this]
      exact List.getElem_mem _
    · push Not at hcop
      rw [k2 hcop.1 hcop.2] at e
      cases e
  · push Not at h0
    obtain ⟨G, hG, hG0⟩ := h0
    obtain ⟨g, hg, hgG⟩ := forall₂_mem_right hf hG
    rw [hG0] at hgG
    have hg0 : g = [] := (is_nil_iff hgG).2 rfl
    rw [hg0] at hg
    match f, hf, hg, e with
    | f0 :: fs, hf, hg, e =>
      unfold univarMdp at e
      dsimp only at e
      split at e
      · cases e
      · next hn =>
        split at e
        · rw [Option.some.injEq, Option.some.injEq] at e
          rw [← e, List.forall₂_map_left_iff]
          exact hf.imp fun _ _ _ => ⟨0, nil_is, Or.inl rfl⟩
        · exfalso
          obtain ⟨o, ho, e⟩ := Option.bind_eq_some_iff.1 e
          match o, ho, e with
          | some s, ho, e =>
            rcases List.mem_cons.1 hg with h | h
            · exact hn (Or.inr h.symm)
            · exact mdpLoop_nil h ho

theorem le_deg_of_canon {f : UPoly R} {P : Polynomial R} (h : Is f P) {t : ℕ × R} (ht : t ∈ f) : t.1 ≤ Upoly.deg f := by
  cases f with
  | nil => simp at ht
  | cons u f =>
    rcases List.mem_cons.1 ht with rfl | ht
    · exact le_refl _
    · exact ((canon_cons.1 h.canon).1 t ht).le

theorem ucoeff_zero {s : UPoly R} {P : Polynomial R} (hs : Is s P) {d : ℕ} (h : P = 0 ∨ P.natDegree < d) : ucoeff s d = 0 := by
  unfold ucoeff
  rcases h with h | h
  · rw [h] at hs
    rw [(is_nil_iff hs).2 rfl]; rfl
  · rw [List.find?_eq_none.2]
    intro t ht
    have h1 : t.1 ≤ Upoly.deg s := le_deg_of_canon hs ht
    rw [is_deg hs] at h1
    simpa using (by omega : t.1 ≠ d)

theorem mdpAll_post : ∀ (Fs : List (List (UPoly R))) (cs : List (UPoly R)), Post (mdpAll Fs cs) fun o => ∀ sv, o = some sv → ∀ σ ∈ sv, ∃ F ∈ Fs, ∃ c ∈ cs, univarMdp F c = some (some σ)
  | [], _ => Post.ret fun sv e σ hσ => by cases e; simp at hσ
  | _ :: _, [] => Post.ret fun sv e σ hσ => by cases e; simp at hσ
  | F :: Fs, c :: cs => by
    unfold mdpAll
    refine (Post.lift (Q := fun o => univarMdp F c = some o) fun o e => e).bind fun o ho => ?_
    match o, ho with
    | none, _ => exact Post.ret fun sv e => by cases e
    | some σ, ho =>
      refine (mdpAll_post Fs cs).bind fun r hr => Post.ret fun sv e τ hτ => ?_
      cases r with
      | none => simp at e
      | some r =>
        rw [Option.map_some, Option.some.injEq] at e
        subst e
        rcases List.mem_cons.1 hτ with rfl | hτ
        · exact ⟨F, by simp, c, by simp, ho⟩
        · obtain ⟨F', hF', c', hc', e⟩ := hr r rfl τ hτ
          exact ⟨F', by simp [hF'], c', by simp [hc'], e⟩

/-- all values are zero: nothing is returned -/
theorem solveGroup_zero (aux : List Var) (betas : List R) {sig : List (UPoly R)} {d : ℕ} (hz : ∀ l, ucoeff (sig.getD l []) d = 0) (monos : List Mono) :
    Post (solveGroup aux betas sig d monos) fun o => ∀ t, o = some t → t = [] := by
  unfold solveGroup
  refine (Post.lift (Q := fun o => ∀ cs, o = some cs → ∀ c ∈ cs, c = 0) fun o e cs ecs c hc => ?_).bind fun o ho => Post.ret fun t et => ?_
  · subst ecs
    by_cases hm : monos = []
    · subst hm
      simp [vandermonde] at e
    have hv : ((List.range monos.length).map fun l => ucoeff (sig.getD l []) d) ≠ [] := by simpa using hm
    have hl : (monos.map fun m => thetaOf aux betas m.data).length = ((List.range monos.length).map fun l => ucoeff (sig.getD l []) d).length := by simp
    obtain ⟨k1, k2⟩ := vandermonde_spec hv hl
    by_cases hcond : (monos.map fun m => thetaOf aux betas m.data).Nodup ∧ (0 : R) ∉ monos.map fun m => thetaOf aux betas m.data
    · obtain ⟨c', e1, e2, e3⟩ := k1 hcond
      rw [e1] at e
      cases e
      have hlen : ((List.range monos.length).map fun l => ucoeff (sig.getD l []) d).length = monos.length := by simp
      rw [hlen] at e2 e3
      have hth : ∀ i, i < monos.length → i < (monos.map fun m => thetaOf aux betas m.data).length := fun i hi => by simpa using hi
      have hu := vandermonde_unique (s := monos.length) (th := fun t => (monos.map fun m => thetaOf aux betas m.data).getD t 0) (x := fun t => cs.getD t 0) (y := fun _ => 0)
        (fun i hi j hj h => by
          rw [List.getD_eq_getElem _ _ (hth i hi), List.getD_eq_getElem _ _ (hth j hj)] at h
          exact (List.Nodup.getElem_inj_iff hcond.1).1 h)
        (fun i hi h => by
          rw [List.getD_eq_getElem _ _ (hth i hi)] at h
          exact hcond.2 (h ▸ List.getElem_mem _))
        (fun l hl => by
          rw [e3 l hl]
          simp only [zero_mul, Finset.sum_const_zero]
          rw [List.getD_eq_getElem _ _ (by simpa using hl), List.getElem_map]
          exact hz _)
      obtain ⟨i, hi, rfl⟩ := List.getElem_of_mem hc
      have := hu i (by omega)
      rwa [List.getD_eq_getElem _ _ hi] at this
    · rw [k2 hcond] at e
      cases e
  · cases o with
    | none => simp at et
    | some cs =>
      rw [Option.map_some, Option.some.injEq] at et
      rw [← et, List.filter_eq_nil_iff]
      intro t ht
      have := ho cs rfl t.2 (List.of_mem_zip ht).2
      simp [this]

variable {x1 : Var}

theorem solveGroups_small (aux : List Var) (betas : List R) {sig : List (UPoly R)} {form : List Mono} {N : ℕ} (hz : ∀ d ≥ N, ∀ l, ucoeff (sig.getD l []) d = 0) : ∀ ds : List ℕ,
    Post (solveGroups x1 aux betas sig form ds) fun o => ∀ t, o = some t → ∀ z ∈ t, (expOf z.1.data x1).toNat < N := by
  intro ds
  induction ds with
  | nil => exact Post.ret fun t et => by cases et; simp
  | cons d ds ih =>
    unfold solveGroups
    have h1 : Post (solveGroup aux betas sig d (form.filter fun m => decide ((expOf m.data x1).toNat = d))) fun o => ∀ t, o = some t → ∀ z ∈ t, (expOf z.1.data x1).toNat < N := by
      by_cases hd : N ≤ d
      · exact (solveGroup_zero aux betas (hz d hd) _).mono fun o h t et z hzt => by rw [h t et] at hzt; simp at hzt
      · refine (solveGroup_spec aux betas sig d _).mono fun o h t et z hzt => ?_
        have := List.mem_filter.1 ((h t et).1.subset (List.mem_map_of_mem (f := Prod.fst) hzt))
        have h2 : (expOf z.1.data x1).toNat = d := by simpa using this.2
        omega
    refine h1.bind fun o h1 => ?_
    match o, h1 with
    | none, _ => exact Post.ret fun t et => by cases et
    | some t1, h1 =>
      refine ih.bind fun r hr => Post.ret fun t et => ?_
      cases r with
      | none => simp at et
      | some t2 =>
        rw [Option.map_some, Option.some.injEq] at et
        subst et
        intro z hz
        rcases List.mem_append.1 hz with h | h
        · exact h1 t1 rfl z h
        · exact hr t2 rfl z h

variable {vc : Var → Var → Bool} (ho : VarOrd vc) {W : Finset Var}

theorem expOf_eq (ho : VarOrd vc) {m : Mono} (h : Valid vc m) (v : Var) : expOf m.data v = E m.data v := by
  have hs := h.sorted
  clear h
  obtain ⟨d, g⟩ := m
  dsimp only at hs ⊢
  induction d with
  | nil => rfl
  | cons y d ih =>
    rw [expOf_cons, E_cons]
    by_cases e : y.1 = v
    · rw [if_pos e, if_pos e, ← e, E_tail ho hs, add_zero]
    · rw [if_neg e, if_neg e, zero_add]
      exact ih (List.pairwise_cons.1 hs).2

include ho in
theorem recoverAll_small (aux : List Var) (betas : List R) (sv : List (List (UPoly R))) : ∀ (i : ℕ) {forms : List (List Mono)} {vs : List (Polynomial R)}, List.Forall₂ (FormOK vc x1 W) forms vs →
    (∀ v ∈ vs, 0 < v.natDegree) → (∀ j < vs.length, ∀ d ≥ (vs.getD j 0).natDegree, ∀ σ ∈ sv, ucoeff (σ.getD (i + j) []) d = 0) →
    Post (recoverAll vc x1 aux betas sv i forms) fun o => ∀ s, o = some s → List.Forall₂ (fun r v => OKIn vc W r ∧ Sml x1 (val r) v) s vs
  | _, [], [], _, _, _ => Post.ret fun s e => by cases e; exact List.Forall₂.nil
  | _, [], _ :: _, h, _, _ => absurd h (by simp)
  | _, _ :: _, [], h, _, _ => absurd h (by simp)
  | i, form :: fs, v :: vs, h, hp, hu => by
    rw [List.forall₂_cons] at h
    obtain ⟨⟨hn, hm⟩, hfs⟩ := h
    unfold recoverAll
    have hg : (groupDegs x1 form).Nodup := by
      unfold groupDegs
      exact (List.perm_insertionSort _ _).nodup_iff.2 (List.nodup_dedup _)
    have hz : ∀ d ≥ v.natDegree, ∀ l, ucoeff ((sv.map fun σ => σ.getD i []).getD l []) d = 0 := fun d hd l => by
      by_cases hl : l < sv.length
      · rw [List.getD_eq_getElem _ _ (by simpa using hl), List.getElem_map]
        exact hu 0 (by simp) d hd _ (List.getElem_mem _)
      · rw [List.getD_eq_default _ _ (by simpa using hl)]; rfl
    refine ((solveGroups_spec aux betas _ hn _ hg).and (solveGroups_small aux betas (x1 := x1) (form := form) hz _)).bind fun o h1 => ?_
    match o, h1 with
    | none, _ => exact Post.ret fun t et => by cases et
    | some t, h1 =>
      obtain ⟨a1, a2, a3⟩ := h1.1 t rfl
      have a4 := h1.2 t rfl
      refine (recoverAll_small aux betas sv (i + 1) hfs (fun w hw => hp w (by simp [hw])) fun j hj d hd σ hσ => ?_).bind fun r hr => Post.ret fun s es => ?_
      · have := hu (j + 1) (by simpa using hj) d (by simpa using hd) σ hσ
        rwa [show i + (j + 1) = i + 1 + j by ring] at this
      · cases r with
        | none => simp at es
        | some ss =>
          rw [Option.map_some, Option.some.injEq] at es
          subst es
          refine List.Forall₂.cons ?_ (hr ss rfl)
          obtain ⟨k1, k2, k3⟩ := nrm_nodup ho (fun z hz => (hm _ (a3 z hz).1).1) a2 a1
          refine ⟨OKIn_of_mem ho k1 fun z hz y hy => (hm _ (a3 z (k3 z hz)).1).2.1 y hy, ?_⟩
          have hpv := hp v (by simp)
          have : (val (nrm vc t)).degreeOf x1 ≤ v.natDegree - 1 := degreeOf_le_of_list (lex_ord ho) k1 fun z hz => by
            have h1 := a4 z (k3 z hz)
            rw [expOf_eq ho (k1.monos z hz)] at h1
            omega
          rw [Sml]
          omega

end

end Mtshl
end CLPoly
