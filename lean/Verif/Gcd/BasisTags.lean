import Verif.Gcd.Basis

/-! # `squarefreebasis`: every element names an input at most once, and no zero input -/

namespace CLPoly
namespace Mgcd
open Mono MvPolynomial Run
open Dense (IsGcd)

variable {vc : Var → Var → Bool} {V : Finset Var} {N : ℕ} {gcd : PV Mono ℤ → PV Mono ℤ → Run (PV Mono ℤ)}

/-- the records of an element: not empty, every input at most once, and all of them satisfy `T` -/
def RecOK (T : ℕ × ℕ → Prop) (I : List (ℕ × ℕ)) : Prop := I ≠ [] ∧ (I.map Prod.fst).Nodup ∧ ∀ x ∈ I, T x

theorem RecOK.snoc {T : ℕ × ℕ → Prop} {I : List (ℕ × ℕ)} (h : RecOK T I) {i m : ℕ} (hT : T (i, m)) (hi : i ∉ I.map Prod.fst) : RecOK T (I ++ [(i, m)]) := by
  refine ⟨by simp, ?_, fun x hx => ?_⟩
  · rw [List.map_append, List.nodup_append]
    refine ⟨h.2.1, by simp, fun a ha b hb => ?_⟩
    simp only [List.map_cons, List.map_nil, List.mem_singleton] at hb
    rintro rfl
    exact hi (hb ▸ ha)
  · rcases List.mem_append.1 hx with hx | hx
    · exact h.2.2 x hx
    · rw [List.mem_singleton] at hx; rw [hx]; exact hT

theorem splitPart_rec (ho : VarOrd vc) (hS : Small V N) (hg : GSpec vc V N gcd) (dfuel i m : ℕ) {T : ℕ × ℕ → Prop} (hT : T (i, m)) :
    ∀ (lst : List BElem) (tmp : PV Mono ℤ), BOK vc V N lst → In vc V N tmp → PC (val tmp) → (∀ b ∈ lst, RecOK T b.2) →
    (∀ b ∈ lst, i ∈ b.2.map Prod.fst → IsRelPrime (val b.1) (val tmp)) →
    Post (splitPart vc gcd dfuel i m lst tmp) fun r => (∀ b ∈ r.1 ++ r.2.1, RecOK T b.2) ∧
      ∀ b ∈ r.1, i ∈ b.2.map Prod.fst → (b ∈ lst ∧ i ∈ b.2.map Prod.fst) ∨ val b.1 ∣ val tmp := by
  intro lst
  induction lst with
  | nil =>
    intro tmp _ _ _ _ _
    exact Post.ret ⟨by simp, by simp⟩
  | cons b l ih =>
    intro tmp hB ht pt hR hc
    obtain ⟨hb, pb⟩ := hB b (by simp)
    have hl : BOK vc V N l := fun x hx => hB x (by simp [hx])
    have hRl : ∀ b ∈ l, RecOK T b.2 := fun x hx => hR x (by simp [hx])
    have hcl : ∀ b ∈ l, i ∈ b.2.map Prod.fst → IsRelPrime (val b.1) (val tmp) := fun x hx => hc x (by simp [hx])
    unfold splitPart
    refine (hg b.1 tmp hb ht).bind fun F1 hF1 => ?_
    obtain ⟨in1, g1⟩ := hF1
    refine Post.ite (fun hn => ?_) fun hn => ?_
    · refine (ih tmp hl ht pt hRl hcl).bind fun r hr => Post.ret ⟨fun x hx => ?_, fun x hx hi => ?_⟩
      · rw [List.cons_append] at hx
        rcases List.mem_cons.1 hx with rfl | hx
        · exact hR _ (by simp)
        · exact hr.1 x hx
      · rcases List.mem_cons.1 hx with rfl | hx
        · exact .inl ⟨by simp, hi⟩
        · exact (hr.2 x hx hi).imp (fun h => ⟨by simp [h.1], h.2⟩) id
    · -- a common factor: `b` does not name the input yet
      have hib : i ∉ b.2.map Prod.fst := fun hi => by
        have hu : IsUnit (val F1) := hc b (by simp) hi g1.1 g1.2.1
        refine hn ((number_of_vars ho in1.ok).2 (unit_vars hu))
      refine (Post.lift fun q hq => quoZ_dvd ho hS ht pt.1 in1 g1.2.1 hq).bind fun tmp' ht' => ?_
      obtain ⟨it', et'⟩ := ht'
      have dt' : val tmp' ∣ val tmp := et' ▸ dvd_mul_right _ _
      have pt' := pt.of_dvd dt'
      have hcl' : ∀ b ∈ l, i ∈ b.2.map Prod.fst → IsRelPrime (val b.1) (val tmp') := fun x hx hi => (hcl x hx hi).of_dvd_right dt'
      refine (Post.ite (Q := fun x : BElem × List BElem => RecOK T x.1.2 ∧ (∀ y ∈ x.2, RecOK T y.2) ∧ (i ∈ x.1.2.map Prod.fst → val x.1.1 ∣ val tmp)) (fun hne => ?_) fun heq => ?_).bind fun x hx => ?_
      · refine (Post.lift (Q := fun _ => True) fun _ _ => trivial).bind fun b1 _ => Post.ret ⟨hR b (by simp), fun y hy => ?_, fun hi => absurd hi hib⟩
        rw [List.mem_singleton] at hy; rw [hy]; exact (hR b (by simp)).snoc hT hib
      · have heq : F1 = b.1 := by simpa using heq
        exact Post.ret ⟨(hR b (by simp)).snoc hT hib, by simp, fun _ => heq ▸ g1.2.1⟩
      obtain ⟨x1, x2, x3⟩ := hx
      refine Post.ite (fun hnum => Post.ret ⟨fun y hy => ?_, fun y hy hi => ?_⟩) fun hnum => ?_
      · simp only [List.cons_append, List.mem_cons, List.mem_append] at hy
        rcases hy with rfl | hy | hy
        · exact x1
        · exact hRl y hy
        · exact x2 y hy
      · rcases List.mem_cons.1 hy with rfl | hy
        · exact .inr (x3 hi)
        · exact .inl ⟨by simp [hy], hi⟩
      · refine (ih tmp' hl it' pt' hRl hcl').bind fun r hr => Post.ret ⟨fun y hy => ?_, fun y hy hi => ?_⟩
        · simp only [List.cons_append, List.mem_cons, List.mem_append] at hy
          rcases hy with rfl | hy | hy | hy
          · exact x1
          · exact hr.1 y (List.mem_append_left _ hy)
          · exact x2 y hy
          · exact hr.1 y (List.mem_append_right _ hy)
        · rcases List.mem_cons.1 hy with rfl | hy
          · exact .inr (x3 hi)
          · exact (hr.2 y hy hi).imp (fun h => ⟨by simp [h.1], h.2⟩) fun h => h.trans dt'

theorem splitParts_rec (ho : VarOrd vc) (hS : Small V N) (hg : GSpec vc V N gcd) (dfuel i : ℕ) {T : ℕ × ℕ → Prop} : ∀ (hs : List (PV Mono ℤ × ℕ)) (lst lst' : List BElem),
    BOK vc V N lst → (∀ h ∈ hs, In vc V N h.1 ∧ PC (val h.1) ∧ T (i, h.2)) → (hs.Pairwise fun a b => IsRelPrime (val a.1) (val b.1)) →
    (∀ b ∈ lst, i ∈ b.2.map Prod.fst → ∀ h ∈ hs, IsRelPrime (val b.1) (val h.1)) → (∀ b ∈ lst ++ lst', RecOK T b.2) →
    Post (splitParts vc gcd dfuel i hs lst lst') fun r => ∀ b ∈ r.1 ++ r.2, RecOK T b.2 := by
  intro hs
  induction hs with
  | nil =>
    intro lst lst' _ _ _ _ h
    exact Post.ret h
  | cons h hs ih =>
    intro lst lst' h1 hh hpw hc hR
    obtain ⟨hin, hpc, hT⟩ := hh h (by simp)
    rw [List.pairwise_cons] at hpw
    unfold splitParts
    refine ((splitPart_spec ho hS hg dfuel i h.2 lst h.1 h1 hin hpc).and
      (splitPart_rec ho hS hg dfuel i h.2 hT lst h.1 h1 hin hpc (fun b hb => hR b (List.mem_append_left _ hb)) fun b hb hi => hc b hb hi h (by simp))).bind fun r hr => ?_
    obtain ⟨hr, r1, r2⟩ := hr
    refine ih r.1 _ hr.okl (fun x hx => hh x (by simp [hx])) hpw.2 (fun b hb hi x hx => ?_) fun b hb => ?_
    · rcases r2 b hb hi with ⟨hb', hi'⟩ | hd
      · exact hc b hb' hi' x (by simp [hx])
      · exact (hpw.1 x hx).of_dvd_left hd
    · simp only [List.mem_append] at hb
      rcases hb with hb | (hb | hb) | hb
      · exact r1 b (List.mem_append_left _ hb)
      · exact hR b (List.mem_append_right _ hb)
      · exact r1 b (List.mem_append_right _ hb)
      · split at hb
        · simp at hb
        · rw [List.mem_singleton] at hb
          rw [hb]
          exact ⟨by simp, by simp, fun x hx => by rw [List.mem_singleton] at hx; rw [hx]; exact hT⟩

theorem basisLoop_rec (ho : VarOrd vc) (hS : Small V N) (hg : GSpec vc V N gcd) (dfuel : ℕ) (T : ℕ × ℕ → Prop) : ∀ (Fs : List (PV Mono ℤ)) (i : ℕ) (lst : List BElem),
    (∀ F ∈ Fs, In vc V N F) → (∀ (k : ℕ) (hk : k < Fs.length) (m : ℕ), Fs[k] ≠ [] → 0 < m → T (i + k, m)) → BOK vc V N lst → (∀ P, Prime P → totNu P lst ≤ 1) → Tags i lst → (∀ b ∈ lst, RecOK T b.2) →
    Post (basisLoop vc gcd dfuel i Fs lst) fun B => ∀ b ∈ B, RecOK T b.2 := by
  have M := lex_ord ho
  intro Fs
  induction Fs with
  | nil =>
    intro i lst _ _ _ _ _ h
    exact Post.ret h
  | cons F Fs ih =>
    intro i lst hF hT h1 h2 h3 hR
    have hT' : ∀ (k : ℕ) (hk : k < Fs.length) (m : ℕ), Fs[k] ≠ [] → 0 < m → T (i + 1 + k, m) := fun k hk m h0 hm => by
      have := hT (k + 1) (by simpa using hk) m (by simpa using h0) hm
      rwa [show i + 1 + k = i + (k + 1) from by omega]
    unfold basisLoop
    refine (squarefreeFactorize_spec ho hS hg dfuel dfuel F (hF F (by simp))).bind fun l hl => ?_
    refine Post.ite (fun hnil => ?_) fun hne => ?_
    · exact ih (i + 1) lst (fun G hG => hF G (by simp [hG])) hT' h1 h2 (fun b hb x hx => by have := h3 b hb x hx; omega) hR
    · rcases hl with ⟨_, hl⟩ | ⟨F0, c, t, hl, ho'⟩
      · exact absurd hl hne
      have F0' : val F ≠ 0 := fun h => F0 (((hF F (by simp)).ok.val_eq_zero M).1 h)
      have hlt : l.tail = t := by rw [hl]; rfl
      rw [hlt]
      have tg : Tags (i + 1) (lst ++ []) := fun b hb x hx => by rw [List.append_nil] at hb; have := h3 b hb x hx; omega
      have hp : ∀ h ∈ t, In vc V N h.1 ∧ PC (val h.1) ∧ Squarefree (val h.1) ∧ T (i, h.2) := fun h hh => by
        obtain ⟨a, b, d, k⟩ := ho'.parts h hh
        have hd : val h.1 ∣ val F := by rw [ho'.prod]; exact (dvd_prodPow hh b).mul_left _
        exact ⟨a, ⟨fun e => F0' (by rw [e] at hd; exact zero_dvd_iff.1 hd), k⟩, d, hT 0 (by simp) h.2 (by simpa using F0) b⟩
      refine ((splitParts_spec ho hS hg dfuel i t lst [] h1 (by simp [BOK]) (fun h hh => ⟨(hp h hh).1, (hp h hh).2.1, (hp h hh).2.2.1⟩) ho'.coprime (fun P hP => by have := h2 P hP; simpa [totNu] using this)
        (fun P _ _ => rfl) tg).and (splitParts_rec ho hS hg dfuel i (T := T) t lst [] h1 (fun h hh => ⟨(hp h hh).1, (hp h hh).2.1, (hp h hh).2.2.2⟩) ho'.coprime
          (fun b hb hi => by
            obtain ⟨x, hx, e⟩ := List.mem_map.1 hi
            have := h3 b hb x hx
            omega) (by simpa using hR))).bind fun r hr => ?_
      obtain ⟨⟨r1, r2, r3, _⟩, r6⟩ := hr
      exact ih (i + 1) (r.1 ++ r.2) (fun G hG => hF G (by simp [hG])) hT' r1 r2 r3 r6

/-- every element names an input at most once, with a positive multiplicity, and no zero input -/
theorem squarefreeBasis_rec (ho : VarOrd vc) (hS : Small V N) (hg : GSpec vc V N gcd) (dfuel : ℕ) {F : List (PV Mono ℤ)} (hF : ∀ f ∈ F, In vc V N f) :
    Post (squarefreeBasis vc gcd dfuel F) fun B => ∀ b ∈ B, b.2 ≠ [] ∧ (b.2.map Prod.fst).Nodup ∧ ∀ x ∈ b.2, 0 < x.2 ∧ ∃ f, F[x.1]? = some f ∧ f ≠ [] :=
  basisLoop_rec ho hS hg dfuel (fun x => 0 < x.2 ∧ ∃ f, F[x.1]? = some f ∧ f ≠ []) F 0 [] hF
    (fun k hk m h0 hm => ⟨hm, F[k], by simp [hk], h0⟩) (by simp [BOK]) (fun P _ => Nat.zero_le _) (by simp [Tags]) (by simp)

end Mgcd
end CLPoly
