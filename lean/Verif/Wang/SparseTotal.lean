import Verif.Wang.LiftTotal
import Verif.Wang.LiftSub
import Verif.Wang.SolveExact

/-! # Sparse interpolation: the test at the end is made without an exponent overflow -/

namespace CLPoly
namespace Mtshl
open Mono Mgcd Run Upoly Factor Lift Wang Charset MvPolynomial

theorem bind_congr {α β : Type _} {m : Run α} {P : α → Prop} (hm : Post m P) {f g : α → Run β} (h : ∀ a, P a → f a = g a) : Run.bind m f = Run.bind m g := by
  funext s
  show (m s).bind _ = (m s).bind _
  cases e : m s with
  | none => rfl
  | some r => exact congrFun (h r.1 (hm s r e)) r.2

/-- a computation that is total agrees with a larger one -/
theorem Wp.eq_of_sub {α : Type _} {m m' : Run α} {Q : α → Prop} (h : Wp (fun _ => m) Q) (hs : Sub m m') : m = m' := by
  obtain ⟨a, _, N, e⟩ := h
  funext s
  have := e N le_rfl s
  exact this.trans (hs s _ this).symm

section
variable {R : Type} [DecidableEq R] [Field R] {vc : Var → Var → Bool} (ho : VarOrd vc) {W : Finset Var} {x1 : Var} {B : ℕ} (hB : (B : ℤ) ≤ capLex W.card)

include ho hB in
theorem checkSum_wp {F : List (PV Mono R)} {D : ℕ} (hF : ∀ f ∈ F, OKIn vc W f ∧ ∀ w, (val f).degreeOf w ≤ D) (h2 : 2 ≤ F.length) (hD : F.length * D < B) : ∀ (rs : List (PV Mono R)) (i : ℕ) {acc : PV Mono R}, i + rs.length ≤ F.length → OKIn vc W acc →
    (∀ r ∈ rs, OKIn vc W r ∧ ∀ w, (val r).degreeOf w ≤ D) → Wp (fun _ => checkSum true vc F i acc rs) fun _ => True
  | [], i, acc, _, _, _ => Wp.ret trivial
  | r :: rs, i, acc, hi, ha, hr => by
    rw [List.length_cons] at hi
    unfold checkSum
    refine Wp.ite (fun _ => checkSum_wp hF h2 hD rs (i + 1) (by omega) ha fun z hz => hr z (by simp [hz])) fun _ => ?_
    have hl : (F.eraseIdx i).length = F.length - 1 := by rw [List.length_eraseIdx, if_pos (by omega)]
    obtain ⟨n, hn⟩ : ∃ n, F.length = n + 1 := ⟨F.length - 1, by omega⟩
    rw [hn, Nat.add_sub_cancel] at hl
    rw [hn, Nat.succ_mul] at hD
    have hne : F.eraseIdx i ≠ [] := fun h => by rw [h, List.length_nil] at hl; omega
    refine Wp.bind (prodAll_wp ho hB (M := D) (fun f hf => hF f (List.mem_of_mem_eraseIdx hf)) (by rw [hl]; omega)) fun b hb => ?_
    refine Wp.bind (mulN_wp ho hB (hr r (by simp)).1 hb.1 fun w => ?_) fun t ht => ?_
    · rw [hb.2 hne]
      have h1 := degreeOf_prod_le (l := (F.eraseIdx i).map val) (w := w) (M := D) fun g hg => by
        obtain ⟨f, hf, rfl⟩ := List.mem_map.1 hg
        exact (hF f (List.mem_of_mem_eraseIdx hf)).2 w
      rw [List.length_map, hl] at h1
      have := (hr r (by simp)).2 w
      omega
    · exact checkSum_wp hF h2 (by rw [hn, Nat.succ_mul]; exact hD) rs (i + 1) (by omega) (add_in ho ha ht.1).1 fun z hz => hr z (by simp [hz])

include ho in
theorem recoverAll_deg (aux : List Var) (betas : List R) (sv : List (List (UPoly R))) {D : ℕ} : ∀ (i : ℕ) {forms : List (List Mono)} {vs : List (Polynomial R)}, List.Forall₂ (FormOK vc x1 W) forms vs →
    (∀ f ∈ forms, ∀ m ∈ f, ∀ w, E m.data w ≤ D) → Post (recoverAll vc x1 aux betas sv i forms) fun o => ∀ s, o = some s → s.length = forms.length ∧ ∀ r ∈ s, OKIn vc W r ∧ ∀ w, (val r).degreeOf w ≤ D
  | _, [], _, _, _ => Post.ret fun s e => by cases e; simp
  | _, _ :: _, [], h, _ => absurd h (by simp)
  | i, form :: fs, v :: vs, h, hD => by
    rw [List.forall₂_cons] at h
    obtain ⟨⟨hn, hm⟩, hfs⟩ := h
    unfold recoverAll
    have hg : (groupDegs x1 form).Nodup := by
      unfold groupDegs
      exact (List.perm_insertionSort _ _).nodup_iff.2 (List.nodup_dedup _)
    refine (solveGroups_spec aux betas _ hn _ hg).bind fun o h1 => ?_
    match o, h1 with
    | none, _ => exact Post.ret fun t et => by cases et
    | some t, h1 =>
      obtain ⟨a1, a2, a3⟩ := h1 t rfl
      refine (recoverAll_deg aux betas sv (i + 1) hfs fun f hf => hD f (by simp [hf])).bind fun r hr => Post.ret fun s es => ?_
      cases r with
      | none => simp at es
      | some ss =>
        rw [Option.map_some, Option.some.injEq] at es
        subst es
        obtain ⟨b1, b2⟩ := hr ss rfl
        refine ⟨by rw [List.length_cons, List.length_cons, b1], fun r hr' => ?_⟩
        rcases List.mem_cons.1 hr' with rfl | hr'
        · obtain ⟨k1, k2, k3⟩ := nrm_nodup ho (fun z hz => (hm _ (a3 z hz).1).1) a2 a1
          refine ⟨OKIn_of_mem ho k1 fun z hz y hy => (hm _ (a3 z (k3 z hz)).1).2.1 y hy, fun w => ?_⟩
          exact degreeOf_le_of_list (lex_ord ho) k1 fun z hz => hD form (by simp) _ (a3 z (k3 z hz)).1 w
        · exact b2 r hr'

include ho hB in
/-- no overflow: the checked computation is the code -/
theorem sparseInt_checked (p : ℕ) (aux : List Var) {F : List (PV Mono R)} {vs : List (Polynomial R)} {D : ℕ} (hF : ∀ f ∈ F, OKIn vc W f ∧ ∀ w, (val f).degreeOf w ≤ D) (h2 : 2 ≤ F.length) (hD : F.length * D < B) (c : PV Mono R)
    {forms : List (List Mono)} (h : List.Forall₂ (FormOK vc x1 W) forms vs) (hl : forms.length ≤ F.length) (hm : ∀ f ∈ forms, ∀ m ∈ f, ∀ w, E m.data w ≤ D) :
    sparseInt true vc p x1 aux F c forms = sparseInt false vc p x1 aux F c forms := by
  unfold sparseInt
  dsimp only
  split
  · rfl
  refine bind_congr (Post.any _) fun betas _ => bind_congr (Post.any _) fun ic _ => bind_congr (Post.any _) fun iF _ => bind_congr (Post.any _) fun o _ => ?_
  match o with
  | none => rfl
  | some sv =>
    refine bind_congr (recoverAll_deg ho aux betas sv (D := D) 0 h hm) fun o ho' => ?_
    match o, ho' with
    | none, _ => rfl
    | some res, hres =>
      obtain ⟨k1, k2⟩ := hres res rfl
      dsimp only
      rw [(checkSum_wp ho hB hF h2 hD res 0 (by omega) OKIn.nil k2).eq_of_sub (checkSum_sub F 0 [] res)]

end

end Mtshl
end CLPoly
