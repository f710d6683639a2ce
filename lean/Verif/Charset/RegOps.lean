import Verif.Charset.RegDefs
import Verif.Charset.Wu
import Verif.Res.SubSpec
import Verif.Res.Zero
import Verif.Res.Psc

/-! # Regular chains: outcomes, resultants, pseudo-division -/

namespace CLPoly
namespace Charset
open Mono MvPolynomial Mgcd

/-! ## outcomes -/

/-- for all large enough fuel the outcome is the same, and if it is a result, it satisfies `P` -/
def Conv {α : Type} (o : ℕ → O2 α) (P : α → Prop) : Prop := ∃ N r, (∀ k ≥ N, o k = some r) ∧ ∀ a, r = some a → P a

section conv
variable {α β : Type} {P : α → Prop} {Q : β → Prop}

theorem Conv.ok {a : α} (h : P a) : Conv (fun _ => ok2 a) P := ⟨0, some a, fun _ _ => rfl, fun _ e => by cases e; exact h⟩
theorem Conv.give : Conv (fun _ => (some none : O2 α)) P := ⟨0, none, fun _ _ => rfl, fun _ e => by cases e⟩
theorem Conv.const {r : Option α} (h : ∀ a, r = some a → P a) : Conv (fun _ => some r) P := ⟨0, r, fun _ _ => rfl, h⟩
theorem Conv.mono {o : ℕ → O2 α} {P' : α → Prop} (h : Conv o P) (hP : ∀ a, P a → P' a) : Conv o P' := by
  obtain ⟨N, r, h1, h2⟩ := h
  exact ⟨N, r, h1, fun a e => hP a (h2 a e)⟩
theorem Conv.bind {o : ℕ → O2 α} {f : ℕ → α → O2 β} (h : Conv o P) (hf : ∀ a, P a → Conv (fun k => f k a) Q) : Conv (fun k => bind2 (o k) (f k)) Q := by
  obtain ⟨N, r, h1, h2⟩ := h
  cases r with
  | none => exact ⟨N, none, fun k hk => by show bind2 (o k) (f k) = _; rw [h1 k hk]; rfl, fun a e => by cases e⟩
  | some a =>
    obtain ⟨N', r', h3, h4⟩ := hf a (h2 a rfl)
    refine ⟨max N N', r', fun k hk => ?_, h4⟩
    show bind2 (o k) (f k) = _
    rw [h1 k (le_trans (le_max_left _ _) hk)]
    exact h3 k (le_trans (le_max_right _ _) hk)
theorem Conv.and {o : ℕ → O2 α} {P' : α → Prop} (h : Conv o P) (h' : Conv o P') : Conv o fun a => P a ∧ P' a := by
  obtain ⟨N, r, h1, h2⟩ := h
  obtain ⟨N', r', h3, h4⟩ := h'
  have e : r = r' := Option.some.inj ((h1 _ (le_max_left N N')).symm.trans (h3 _ (le_max_right N N')))
  exact ⟨N, r, h1, fun a ha => ⟨h2 a ha, h4 a (e ▸ ha)⟩⟩
theorem Conv.succ {o : ℕ → O2 α} (h : Conv (fun k => o (k + 1)) P) : Conv o P := by
  obtain ⟨N, r, h1, h2⟩ := h
  refine ⟨N + 1, r, fun k hk => ?_, h2⟩
  obtain ⟨j, rfl⟩ : ∃ j, k = j + 1 := ⟨k - 1, by omega⟩
  exact h1 j (by omega)

/-- what the loop that collects two vectors returns -/
def Coll {γ δ : Type} (Q : γ → List δ × List δ → Prop) (l : List γ) (r : List δ × List δ) : Prop :=
  (∀ a ∈ l, ∃ s, Q a s ∧ (∀ x ∈ s.1, x ∈ r.1) ∧ ∀ x ∈ s.2, x ∈ r.2) ∧ (∀ x ∈ r.1, ∃ a ∈ l, ∃ s, Q a s ∧ x ∈ s.1) ∧ ∀ x ∈ r.2, ∃ a ∈ l, ∃ s, Q a s ∧ x ∈ s.2

theorem Conv.collect {γ δ : Type} {f : ℕ → γ → O2 (List δ × List δ)} {Q : γ → List δ × List δ → Prop} : ∀ {l : List γ}, (∀ a ∈ l, Conv (fun k => f k a) (Q a)) →
    Conv (fun k => collect2 (f k) l) (Coll Q l) := by
  intro l
  induction l with
  | nil => intro _; exact Conv.ok ⟨by simp, by simp, by simp⟩
  | cons a l ih =>
    intro h
    refine (h a (by simp)).bind fun x hx => (ih fun b hb => h b (List.mem_cons_of_mem _ hb)).bind fun y hy => Conv.ok ⟨?_, ?_, ?_⟩
    · intro b hb
      rcases List.mem_cons.1 hb with rfl | hb
      · exact ⟨x, hx, fun z hz => List.mem_append_left _ hz, fun z hz => List.mem_append_left _ hz⟩
      · obtain ⟨s, h1, h2, h3⟩ := hy.1 b hb
        exact ⟨s, h1, fun z hz => List.mem_append_right _ (h2 z hz), fun z hz => List.mem_append_right _ (h3 z hz)⟩
    · intro z hz
      rcases List.mem_append.1 hz with hz | hz
      · exact ⟨a, by simp, x, hx, hz⟩
      · obtain ⟨b, hb, s, h1, h2⟩ := hy.2.1 z hz
        exact ⟨b, List.mem_cons_of_mem _ hb, s, h1, h2⟩
    · intro z hz
      rcases List.mem_append.1 hz with hz | hz
      · exact ⟨a, by simp, x, hx, hz⟩
      · obtain ⟨b, hb, s, h1, h2⟩ := hy.2.2 z hz
        exact ⟨b, List.mem_cons_of_mem _ hb, s, h1, h2⟩

end conv

/-! ## the checked variant is a restriction of the code -/

/-- results of `o` are results of `o'` -/
def Le2 {α : Type} (o o' : O2 α) : Prop := ∀ a, o = ok2 a → o' = ok2 a

section le
variable {α β : Type}
theorem Le2.refl (o : O2 α) : Le2 o o := fun _ h => h
theorem Le2.bind {o o' : O2 α} {f f' : α → O2 β} (h : Le2 o o') (hf : ∀ a, Le2 (f a) (f' a)) : Le2 (bind2 o f) (bind2 o' f') := by
  intro b e
  match o, h with
  | none, _ => simp [bind2, ok2] at e
  | some none, _ => simp [bind2, ok2] at e
  | some (some a), h => rw [h a rfl]; exact hf a b e
theorem Le2.ite {c : Prop} [Decidable c] {o o' p p' : O2 α} (h : Le2 o o') (h' : Le2 p p') : Le2 (if c then o else p) (if c then o' else p') := by
  split
  · exact h
  · exact h'
theorem Le2.collect2 {f f' : α → O2 (List β × List β)} (h : ∀ a, Le2 (f a) (f' a)) : ∀ l, Le2 (Charset.collect2 f l) (Charset.collect2 f' l) := by
  intro l
  induction l with
  | nil => exact Le2.refl _
  | cons a l ih => exact (h a).bind fun x => ih.bind fun y => Le2.refl _
theorem Le2.collect1 {f f' : α → O2 (List β)} (h : ∀ a, Le2 (f a) (f' a)) : ∀ l, Le2 (Charset.collect1 f l) (Charset.collect1 f' l) := by
  intro l
  induction l with
  | nil => exact Le2.refl _
  | cons a l ih => exact (h a).bind fun x => ih.bind fun y => Le2.refl _
theorem Le2.check {b : Bool} {o : O2 α} : Le2 (if b = true then some none else o) o := by
  intro a e
  cases b with
  | true => simp [ok2] at e
  | false => simpa using e
end le

section code
variable {vc : Var → Var → Bool} {chk : Bool} {fuel : ℕ}

theorem resC_code (F G : PV Mono ℤ) (v : Var) : Le2 (resC vc chk fuel F G v) (resC vc false fuel F G v) := by
  unfold resC
  simp only [Bool.false_and, Bool.false_eq_true, if_false]
  exact Le2.check

theorem discC_code (G : PV Mono ℤ) (v : Var) : Le2 (discC vc chk fuel G v) (discC vc false fuel G v) := by
  unfold discC
  simp only [Bool.false_and, Bool.false_eq_true, if_false]
  exact Le2.check

theorem pquoC_code (v : Var) (G F : PV Mono ℤ) : Le2 (pquoC vc chk v G F) (pquoC vc false v G F) := by
  unfold pquoC
  simp only [Bool.false_and, Bool.false_eq_true, if_false]
  exact Le2.check

theorem premD_code (v : Var) (G F : PV Mono ℤ) : Le2 (premD vc chk v G F) (premD vc false v G F) := by
  intro a e
  unfold premD ok2 at e ⊢
  simp only [Option.some.injEq] at e ⊢
  exact premC_code e

theorem subC_code (F G : PV Mono ℤ) (v : Var) : Le2 (subC vc chk fuel F G v) (subC vc false fuel F G v) := by
  unfold subC
  simp only [Bool.false_and, Bool.false_eq_true, if_false]
  intro a e
  have e := Le2.check a e
  cases h : Res.subresultant vc (lexGt vc) coefDivZ fuel F G v true with
  | none => rw [h] at e; simp [ok2] at e
  | some L =>
    rw [h] at e
    simp only [Option.map_some, ok2, Option.some.injEq] at e ⊢
    split at e
    · simp at e
    · exact Option.some.inj e

theorem redChain_code (T : List (PV Mono ℤ)) (f : PV Mono ℤ) : Le2 (redChain vc chk T f) (redChain vc false T f) := by
  induction T with
  | nil => exact Le2.refl _
  | cons c T ih => exact ih.bind fun g => Le2.ite (Le2.refl _) (premD_code _ _ _)

theorem remChain_code (T : List (PV Mono ℤ)) (f : PV Mono ℤ) : Le2 (remChain vc chk T f) (remChain vc false T f) := by
  induction T with
  | nil => exact Le2.refl _
  | cons c T ih => exact ih.bind fun g => premD_code _ _ _

theorem iterRes_code (T : List (PV Mono ℤ)) (f : PV Mono ℤ) : Le2 (iterRes vc chk fuel T f) (iterRes vc false fuel T f) := by
  induction T with
  | nil => exact Le2.refl _
  | cons c T ih => exact ih.bind fun g => resC_code _ _ _

theorem iterResB_code (T : List (PV Mono ℤ)) (f : PV Mono ℤ) : Le2 (iterResB vc chk fuel T f) (iterResB vc false fuel T f) := by
  induction T with
  | nil => exact Le2.refl _
  | cons c T ih => exact ih.bind fun g => Le2.ite (Le2.refl _) (resC_code _ _ _)

theorem wrsdLoop_code {w w' : List (PV Mono ℤ) → PV Mono ℤ → O2 (List (List (PV Mono ℤ)) × List (List (PV Mono ℤ)))} (hw : ∀ T f, Le2 (w T f) (w' T f)) (x : Var) (t f : PV Mono ℤ) :
    ∀ rs H, Le2 (wrsdLoop vc chk w x t f rs H) (wrsdLoop vc false w' x t f rs H) := by
  intro rs
  induction rs with
  | nil =>
    intro H
    cases H with
    | nil => exact Le2.refl _
    | cons h H => exact Le2.refl _
  | cons s rs ih =>
    intro H
    cases H with
    | nil => exact Le2.refl _
    | cons h H =>
      refine (Le2.collect2 (fun h => hw _ _) _).bind fun W => (Le2.collect2 (fun g => ?_) _).bind fun U => (ih _).bind fun V => Le2.refl _
      exact (pquoC_code _ _ _).bind fun q => Le2.ite ((hw _ _).bind fun V => Le2.refl _) (Le2.refl _)

/-- results of the checked `wrsd` are results of the code -/
theorem wrsd_code (ord : List Var) (chk : Bool) : ∀ fuel T f, Le2 (wrsd ord chk fuel T f) (wrsd ord false fuel T f) := by
  intro fuel
  induction fuel with
  | zero => exact fun T f => Le2.refl _
  | succ fuel ih =>
    intro T f
    unfold wrsd
    refine (redChain_code _ _).bind fun g => Le2.ite (ih _ _) (Le2.ite (Le2.refl _) (Le2.ite (Le2.refl _) (Le2.ite (Le2.refl _) ?_)))
    refine (iterRes_code _ _).bind fun res => Le2.ite (Le2.refl _) ?_
    refine (subC_code _ _ _).bind fun L => Le2.bind (Le2.ite ?_ ?_) fun HG => Le2.refl _
    · exact (pquoC_code _ _ _).bind fun q => (ih _ _).bind fun W => Le2.refl _
    · exact (ih _ _).bind fun W => (wrsdLoop_code ih _ _ _ _ _).bind fun V => Le2.refl _

theorem firstReg_code (x : Var) (T : List (PV Mono ℤ)) : ∀ l, Le2 (firstReg vc chk x T l) (firstReg vc false x T l) := by
  intro l
  induction l with
  | nil => exact Le2.refl _
  | cons p l ih =>
    obtain ⟨s, i⟩ := p
    exact Le2.ite ((remChain_code _ _).bind fun R => Le2.ite (Le2.refl _) ih) ih

theorem rsd_code (ord : List Var) (chk : Bool) : ∀ fuel T f, Le2 (rsd ord chk fuel T f) (rsd ord false fuel T f) := by
  intro fuel
  induction fuel with
  | zero => exact fun T f => Le2.refl _
  | succ fuel ih =>
    intro T f
    unfold rsd
    refine (remChain_code _ _).bind fun g => Le2.ite (Le2.refl _) ((iterResB_code _ _).bind fun r => Le2.ite (Le2.refl _) (Le2.ite (Le2.refl _) (Le2.ite ?_ ?_)))
    · exact (ih _ _).bind fun W => Le2.refl _
    refine (Le2.ite (subC_code _ _ _) (subC_code _ _ _)).bind fun L => (firstReg_code _ _ _).bind fun si => (iterResB_code _ _).bind fun r => Le2.ite ?_ ?_
    · simp only [Bool.false_and, Bool.false_eq_true, if_false]
      intro a e
      exact ((remChain_code _ _).bind fun f1 => (pquoC_code _ _ _).bind fun f2 => (ih _ _).bind fun W1 => (ih _ _).bind fun W2 => Le2.refl _) a (Le2.check a e)
    · exact (ih _ _).bind fun W => (Le2.collect2 (fun h => ih _ _) _).bind fun U => (Le2.collect2 (fun h => ih _ _) _).bind fun V => Le2.refl _

theorem isRegularFrom_code (T : List (PV Mono ℤ)) : ∀ l, Le2 (isRegularFrom vc chk fuel T l) (isRegularFrom vc false fuel T l) := by
  intro l
  induction l with
  | nil => exact Le2.refl _
  | cons n l ih => exact (iterResB_code _ _).bind fun r => Le2.ite (Le2.refl _) ih

theorem firstIrr_code (T : List (PV Mono ℤ)) : ∀ l, Le2 (firstIrr vc chk fuel T l) (firstIrr vc false fuel T l) := by
  intro l
  induction l with
  | nil => exact Le2.refl _
  | cons n l ih => exact (iterResB_code _ _).bind fun r => Le2.ite (Le2.refl _) ih

theorem lastDisc_code (T : List (PV Mono ℤ)) : ∀ n, Le2 (lastDisc vc chk fuel T n) (lastDisc vc false fuel T n) := by
  intro n
  induction n with
  | zero => exact Le2.refl _
  | succ n ih => exact (discC_code _ _).bind fun d => (iterResB_code _ _).bind fun r => Le2.ite (Le2.refl _) ih

theorem rcToSqf_code (ord : List Var) (chk : Bool) : ∀ fuel T, Le2 (rcToSqf ord chk fuel T) (rcToSqf ord false fuel T) := by
  intro fuel
  induction fuel with
  | zero => exact fun T => Le2.refl _
  | succ fuel ih =>
    intro T
    unfold rcToSqf
    refine Le2.ite (Le2.refl _) ((lastDisc_code _ _).bind fun k => Le2.ite (Le2.refl _) ?_)
    refine (discC_code _ _).bind fun d => (wrsd_code _ _ _ _ _).bind fun W => (Le2.collect1 (fun g => ih _) _).bind fun A =>
      (Le2.ite (subC_code _ _ _) (subC_code _ _ _)).bind fun L => (firstReg_code _ _ _).bind fun si => (iterResB_code _ _).bind fun r => Le2.ite ?_ ?_
    · exact (remChain_code _ _).bind fun f1 => (pquoC_code _ _ _).bind fun f2 => (ih _).bind fun B => Le2.refl _
    · exact (wrsd_code _ _ _ _ _).bind fun V => (Le2.collect1 (fun g => ih _) _).bind fun B => Le2.ite ((Le2.collect1 (fun g => ih _) _).bind fun C => Le2.refl _) (Le2.refl _)

end code

/-! ## the operations -/

section ops
variable {vc : Var → Var → Bool}

theorem resFits_ok (ho : VarOrd vc) {v : Var} {F G : PV Mono ℤ} (hF : LP vc F) (hG : LP vc G) (h : resFits vc v F G = true) (w : Var) :
    (((max ((val F).degreeOf v) ((val G).degreeOf v) + 1) * ((val G).degreeOf v * (val F).degreeOf w + (val F).degreeOf v * (val G).degreeOf w) : ℕ) : ℤ)
      < capLex ((val F).vars ∪ (val G).vars).card := by
  obtain ⟨-, c2, c3⟩ := commonVars ho hF.monos hG.monos
  rw [polyVars_eq (lex_ord ho) hF, polyVars_eq (lex_ord ho) hG] at c2 c3
  unfold resFits at h
  dsimp only at h
  rw [c3, List.all_eq_true] at h
  by_cases hm : w ∈ (val F).vars ∪ (val G).vars
  · have := h w ((c2 w).2 hm)
    simp only [decide_eq_true_iff, degreeLex_spec ho hG, degreeLex_spec ho hF] at this
    push_cast at this ⊢
    exact this
  · rw [Finset.mem_union, not_or, ← degreeOf_zero_iff, ← degreeOf_zero_iff] at hm
    rw [hm.1, hm.2]
    simpa using capLex_pos _

/-- degrees of the resultant -/
theorem res_deg {v : Var} {f g out : MvPolynomial Var ℤ} {m l : ℕ} (hm : f.degreeOf v = m) (hl : g.degreeOf v = l) (hv : v ∉ out.vars)
    (e : out = Polynomial.resultant (toU v f) (toU v g) m l) (w : Var) : out.degreeOf w ≤ l * f.degreeOf w + m * g.degreeOf w := by
  by_cases hw : w = v
  · rw [hw, degreeOf_zero_iff.2 hv]; exact Nat.zero_le _
  obtain ⟨s, h1, h2, -⟩ := Res.exists_sub v f g m l 0
  have : toU v s = toU v out := by
    rw [h1, toU_free hv, e]
    by_cases h0 : 0 < m + l
    · exact Res.SB_resultant _ _ (by rw [natDegree_toU, hm]) (by rw [natDegree_toU, hl]) h0
    · obtain rfl : m = 0 := by omega
      obtain rfl : l = 0 := by omega
      simp [Res.Sub, Res.SB, Res.dpol]
  rw [← toU_injective v this]
  exact h2 w hw

/-- what `resultant(F, G, v)` returns -/
structure ResOut (vc : Var → Var → Bool) (v : Var) (F G out : PV Mono ℤ) : Prop where
  ok : LP vc out
  zero : val F = 0 ∨ val G = 0 → val out = 0
  free : v ∉ (val out).vars
  eq : val F ≠ 0 → val G ≠ 0 → val out = Polynomial.resultant (toU v (val F)) (toU v (val G)) ((val F).degreeOf v) ((val G).degreeOf v)
  deg : ∀ w, (val out).degreeOf w ≤ (val G).degreeOf v * (val F).degreeOf w + (val F).degreeOf v * (val G).degreeOf w

theorem resultant_out (ho : VarOrd vc) {F G : PV Mono ℤ} (hF : LP vc F) (hG : LP vc G) (v : Var)
    (hcap : ∀ w, (((max ((val F).degreeOf v) ((val G).degreeOf v) + 1) * ((val G).degreeOf v * (val F).degreeOf w + (val F).degreeOf v * (val G).degreeOf w) : ℕ) : ℤ)
      < capLex ((val F).vars ∪ (val G).vars).card) :
    ∃ N out, (∀ fuel ≥ N, Res.resultant vc (lexGt vc) coefDivZ fuel F G v = some out) ∧ ResOut vc v F G out := by
  obtain ⟨N, out, h1, h2, h3, h4⟩ := Res.resultant_spec coefDivZ_ok (lex_ord ho) hF hG v rfl rfl hcap
  refine ⟨N, out, h1, ?_⟩
  by_cases hF0 : val F = 0
  · have := h3 (.inl hF0)
    exact ⟨h2, h3, by rw [this]; simp, fun a => absurd hF0 a, fun w => by rw [this]; simp⟩
  by_cases hG0 : val G = 0
  · have := h3 (.inr hG0)
    exact ⟨h2, h3, by rw [this]; simp, fun _ a => absurd hG0 a, fun w => by rw [this]; simp⟩
  exact ⟨h2, h3, (h4 hF0 hG0).1, fun _ _ => (h4 hF0 hG0).2, res_deg rfl rfl (h4 hF0 hG0).1 (h4 hF0 hG0).2⟩

theorem resC_conv (ho : VarOrd vc) {F G : PV Mono ℤ} (hF : LP vc F) (hG : LP vc G) (v : Var) : Conv (fun k => resC vc true k F G v) (ResOut vc v F G) := by
  unfold resC
  by_cases hf : resFits vc v F G = true
  · simp only [hf, Bool.not_true, Bool.and_false, Bool.false_eq_true, if_false]
    obtain ⟨N, out, h1, h2⟩ := resultant_out ho hF hG v (resFits_ok ho hF hG hf)
    exact ⟨N, some out, fun k hk => by beta_reduce; rw [h1 k hk]; rfl, fun a e => by cases e; exact h2⟩
  · simp only [hf, Bool.not_false, Bool.and_true, if_true]
    exact Conv.give

/-- what `subresultant(F, G, v)` returns when it does not go wrong, `m = deg F ≥ l = deg G > 0` -/
structure SubOut (vc : Var → Var → Bool) (v : Var) (F G : PV Mono ℤ) (m l u : ℕ) (L : List (PV Mono ℤ)) : Prop where
  len : L.length = u + 1
  top : L.getD u [] = F
  top' : L.getD (u - 1) [] = G
  gap : ∀ i, l < i → i < u - 1 → L.getD i [] = []
  ok : ∀ i, i ≤ l → i < u - 1 → LP vc (L.getD i [])
  eq : ∀ i, i ≤ l → i < u - 1 → toU v (val (L.getD i [])) = Res.Sub (toU v (val F)) (toU v (val G)) m l i

theorem subC_conv (ho : VarOrd vc) {F G : PV Mono ℤ} (hF : LP vc F) (hG : LP vc G) (v : Var) {m l u : ℕ} (hm : (val F).degreeOf v = m) (hl : (val G).degreeOf v = l) (hl1 : 1 ≤ l)
    (hlm : l ≤ m) (hu : u = if l < m then m else m + 1) : Conv (fun k => subC vc true k F G v) (SubOut vc v F G m l u) := by
  unfold subC
  by_cases hf : resFits vc v F G = true
  · simp only [hf, Bool.not_true, Bool.and_false, Bool.false_eq_true, if_false, Bool.true_and]
    have hcap := resFits_ok ho hF hG hf
    rw [hm, hl, max_eq_left hlm] at hcap
    obtain ⟨N, L, h1, h2, h3, h4, h5, h6⟩ := Res.subresultant_list coefDivZ_ok (lex_ord ho) hF hG v hm hl hl1 hlm hcap hu
    by_cases hd : chainDefect vc v L = true
    · exact ⟨N, none, fun k hk => by beta_reduce; rw [h1 k hk]; simp [hd], fun a e => by cases e⟩
    refine ⟨N, some L, fun k hk => by beta_reduce; rw [h1 k hk]; simp [hd], fun a e => ?_⟩
    cases e
    refine ⟨h2, h3, h4, h5, fun i a b => (h6 i a b).1, fun i a b => ?_⟩
    rcases (h6 i a b).2 with h | ⟨rfl, x1, k, k1, k2, k3⟩
    · exact h
    exfalso
    refine hd ?_
    unfold chainDefect
    rw [Bool.and_eq_true, decide_eq_true_iff, List.any_eq_true]
    refine ⟨x1, ?_⟩
    by_cases hkl : k ≤ l
    · refine ⟨k, List.mem_range.2 (by omega), ?_⟩
      have hk := (h6 k hkl (by omega)).2.resolve_right (by rintro ⟨e, -⟩; omega)
      rw [Bool.and_eq_true, decide_eq_true_iff, decide_eq_true_iff, degreeLex_spec ho (h6 k hkl (by omega)).1, ← natDegree_toU, hk, k3]
      exact ⟨k1, rfl⟩
    · have hum : u = m := by rw [hu, if_pos (by split at hu <;> omega)]
      have e1 : Res.Sub (toU v (val F)) (toU v (val G)) m l k = Polynomial.C ((toU v (val G)).leadingCoeff ^ (m - k - 1)) * toU v (val G) := by
        have hn : (toU v (val G)).natDegree = l := by rw [natDegree_toU, hl]
        have := Res.SB_powG (F := toU v (val F)) (G := toU v (val G)) (b := m - k) (m - k - 1) (by omega)
        rw [hn] at this
        unfold Res.Sub
        rw [show m + l - k = l + (m - k) by omega, show l - k = 0 by omega, this]
      have hg0 : toU v (val G) ≠ 0 := by
        intro e
        have := natDegree_toU v (val G)
        rw [e, Polynomial.natDegree_zero, hl] at this
        omega
      rw [e1, Polynomial.natDegree_C_mul (pow_ne_zero _ (Polynomial.leadingCoeff_ne_zero.2 hg0)), natDegree_toU, hl] at k3
      refine ⟨u - 1, List.mem_range.2 (by omega), ?_⟩
      rw [Bool.and_eq_true, decide_eq_true_iff, decide_eq_true_iff, h4, degreeLex_spec ho hG, hl, k3]
      exact ⟨by omega, rfl⟩
  · simp only [hf, Bool.not_false, Bool.and_true, if_true]
    exact Conv.give

theorem pquoC_spec (ho : VarOrd vc) {v : Var} {G F : PV Mono ℤ} (hG : LP vc G) (hF : LP vc F) (hne : F ≠ []) :
    ∃ r, pquoC vc true v G F = some r ∧ ∀ Q, r = some Q → LP vc Q ∧ ∃ S, LP vc S ∧ IsPseudo v true (val G) (val F) (val Q) (val S) := by
  unfold pquoC
  by_cases hf : premFits vc v G F = true
  · obtain ⟨Q, S, e, -, hQ, hS, hp⟩ := pquoLexEntry_spec ho true hG hF hne (premFits_ok ho hG hF hf)
    refine ⟨some Q, by simp [hf, e], fun Q' h => ?_⟩
    cases h
    exact ⟨hQ, S, hS, hp⟩
  · exact ⟨none, by simp [hf], fun Q h => by cases h⟩

theorem premD_spec (ho : VarOrd vc) {v : Var} {G F : PV Mono ℤ} (hG : LP vc G) (hF : LP vc F) (hne : F ≠ []) :
    ∃ r, premD vc true v G F = some r ∧ ∀ S, r = some S → LP vc S ∧ ∃ Q, LP vc Q ∧ IsPseudo v true (val G) (val F) (val Q) (val S) :=
  ⟨_, rfl, fun _ h => premC_spec ho hG hF hne h⟩

end ops

end Charset
end CLPoly
