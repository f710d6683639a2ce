import Verif.Charset.RegMono
import Mathlib.Analysis.Complex.Polynomial.Basic

/-! # `ZDtoRC`: from triangular sets to regular chains -/

namespace CLPoly
namespace Charset
open Mono MvPolynomial Mgcd Run

/-- a field of characteristic 0 -/
structure Fld : Type 1 where
  K : Type
  [f : Field K]
  [c : CharZero K]
attribute [instance] Fld.f Fld.c

instance : Nonempty Fld := ⟨⟨ℂ⟩⟩

theorem Conv.all {α : Type} {ι : Type*} [Nonempty ι] {o : ℕ → O2 α} {P : ι → α → Prop} (h : ∀ i, Conv o (P i)) : Conv o (fun a => ∀ i, P i a) := by
  obtain ⟨N, r, h1, -⟩ := h (Classical.arbitrary ι)
  refine ⟨N, r, h1, fun a e i => ?_⟩
  obtain ⟨N', r', h3, h4⟩ := h i
  have e' : r = r' := Option.some.inj ((h1 _ (le_max_left N N')).symm.trans (h3 _ (le_max_right N N')))
  exact h4 a (e' ▸ e)

/-! ## runs that end -/

/-- with enough fuel the run returns a result with `P`, unless it fails -/
def ConvR {α : Type} (m : ℕ → Run (Option α)) (P : α → Prop) : Prop := ∃ N, ∀ n ≥ N, Post (m n) fun r => ∃ a, r = some a ∧ P a

theorem ConvR.ret {α : Type} {P : α → Prop} {a : α} (h : P a) : ConvR (fun _ => Run.ret (some a)) P := ⟨0, fun _ _ => Post.ret ⟨a, rfl, h⟩⟩
theorem ConvR.succ {α : Type} {P : α → Prop} {m : ℕ → Run (Option α)} (h : ConvR (fun n => m (n + 1)) P) : ConvR m P := by
  obtain ⟨N, h⟩ := h
  refine ⟨N + 1, fun n hn => ?_⟩
  obtain ⟨k, rfl⟩ : ∃ k, n = k + 1 := ⟨n - 1, by omega⟩
  exact h k (by omega)
theorem ConvR.mono {α : Type} {P P' : α → Prop} {m : ℕ → Run (Option α)} (h : ConvR m P) (hP : ∀ a, P a → P' a) : ConvR m P' := by
  obtain ⟨N, h⟩ := h
  exact ⟨N, fun n hn => (h n hn).mono fun r ⟨a, e, ha⟩ => ⟨a, e, hP a ha⟩⟩

theorem ConvR.lift {α β : Type} {P : α → Prop} {Q : β → Prop} {o : ℕ → O2 α} {f : ℕ → α → Run (Option β)} (h : Conv o P) (hf : ∀ a, P a → ConvR (fun n => f n a) Q) :
    ConvR (fun n => bindR (liftO (o n)) (f n)) Q := by
  obtain ⟨N, r, h1, h2⟩ := h
  cases r with
  | none =>
    refine ⟨N, fun n hn => ?_⟩
    beta_reduce; rw [h1 n hn]
    exact Post.bind (P := fun _ => False) Post.fail fun _ h => False.elim h
  | some a =>
    obtain ⟨N', h3⟩ := hf a (h2 a rfl)
    refine ⟨max N N', fun n hn => ?_⟩
    beta_reduce; rw [h1 n (le_trans (le_max_left _ _) hn)]
    exact Post.bind (P := fun r => r = some a) (Post.ret rfl) fun r e => by rw [e]; exact h3 n (le_trans (le_max_right _ _) hn)

theorem ConvR.collect {α β : Type} {f : ℕ → α → Run (Option (List β))} {Q : α → List β → Prop} {l : List α} (h : ∀ a ∈ l, ConvR (fun n => f n a) (Q a)) :
    ConvR (fun n => runCollect (f n) l) (fun L => ∃ g, L = g.flatten ∧ List.Forall₂ Q l g) := by
  have : ∃ N, ∀ a ∈ l, ∀ n ≥ N, Post (f n a) fun r => ∃ x, r = some x ∧ Q a x := by
    induction l with
    | nil => exact ⟨0, by simp⟩
    | cons a l ih =>
      obtain ⟨N, hN⟩ := ih fun b hb => h b (List.mem_cons_of_mem _ hb)
      obtain ⟨N', hN'⟩ := h a (by simp)
      refine ⟨max N N', fun b hb n hn => ?_⟩
      rcases List.mem_cons.1 hb with rfl | hb
      · exact hN' n (le_trans (le_max_right _ _) hn)
      · exact hN b hb n (le_trans (le_max_left _ _) hn)
  obtain ⟨N, hN⟩ := this
  refine ⟨N, fun n hn => ?_⟩
  refine ((runCollect_ne (f := f n) (l := l) fun a ha => (hN a ha n hn).mono fun r ⟨x, e, _⟩ => by simp [e]).and
    (runCollect_post (f := f n) (Q := Q) (l := l) fun a ha => (hN a ha n hn).mono fun r ⟨x, e, hx⟩ y hy => by rw [e] at hy; cases hy; exact hx)).mono fun r hr => ?_
  obtain ⟨x, rfl⟩ := Option.ne_none_iff_exists'.1 hr.1
  exact ⟨x, rfl, hr.2 x rfl⟩

theorem forall₂_finite {α β : Type*} {Q : α → β → Prop} {l : List α} (h : ∀ a ∈ l, {b | Q a b}.Finite) : {l' | List.Forall₂ Q l l'}.Finite := by
  induction l with
  | nil =>
    refine (Set.finite_singleton []).subset fun x hx => ?_
    simpa using hx
  | cons a l ih =>
    refine ((h a (by simp)).image2 List.cons (ih fun b hb => h b (List.mem_cons_of_mem _ hb))).subset fun x hx => ?_
    obtain ⟨b, l', h1, h2, rfl⟩ := List.forall₂_cons_left_iff.1 (show List.Forall₂ Q (a :: l) x from hx)
    exact ⟨b, h1, l', h2, rfl⟩

/-- finitely many results of the first run -/
theorem ConvR.bind_finite {α β : Type} {P : β → Prop} {m : Run α} {S : Set α} (hS : S.Finite) (hm : Post m (· ∈ S)) {f : ℕ → α → Run (Option β)} (hf : ∀ a ∈ S, ConvR (fun n => f n a) P) :
    ConvR (fun n => Run.bind m (f n)) P := by
  have : ∃ N, ∀ a ∈ S, ∀ n ≥ N, Post (f n a) fun r => ∃ x, r = some x ∧ P x := by
    choose! N hN using hf
    obtain ⟨B, hB⟩ := (hS.image N).bddAbove
    exact ⟨B, fun a ha n hn => hN a ha n (le_trans (hB ⟨a, ha, rfl⟩) hn)⟩
  obtain ⟨N, hN⟩ := this
  exact ⟨N, fun n hn => hm.bind fun a ha => hN a ha n hn⟩

/-! ## all fields -/

variable {ord : List Var}

/-- regular chain over every field of characteristic 0 -/
def RA (ord : List Var) (T : List (PV Mono ℤ)) : Prop := ∀ X : Fld, RC X.K ord T

theorem RA.tc {T : List (PV Mono ℤ)} (h : RA ord T) : TC ord T := (h (Classical.arbitrary Fld)).1
theorem RA.snoc {A : List (PV Mono ℤ)} {t : PV Mono ℤ} : RA ord (A ++ [t]) ↔ RA ord A ∧ Lvl0 ord A t ∧ ∀ X : Fld, Reg X.K ord A t :=
  ⟨fun h => ⟨fun X => (RC.snoc.1 (h X)).1, (RC.snoc.1 (h (Classical.arbitrary Fld))).2.1, fun X => (RC.snoc.1 (h X)).2.2⟩, fun h X => RC.snoc.2 ⟨h.1 X, h.2.1, h.2.2 X⟩⟩

theorem wrsd_all (hn : ord.Nodup) {T : List (PV Mono ℤ)} {f : PV Mono ℤ} (hT : RA ord T) (hf : LP (varCustom ord) f) (hv : (val f).vars ⊆ Lo ord T.length) :
    Conv (fun k => wrsd ord true k T f) (fun r => ∀ X : Fld, WOut X.K ord T f r) := Conv.all fun X => wrsd_conv hn T f (hT X) hf hv

theorem level_all (hn : ord.Nodup) {T : List (PV Mono ℤ)} (hT : TC ord T) {n : ℕ} (h : n < T.length) (hr : RA ord (T.take n)) :
    Conv (fun k => iterResB (varCustom ord) true k (T.take n) (leadLex (T.getD n []))) (fun r => (r ≠ [] → ∀ X : Fld, Reg X.K ord (T.take n) (T.getD n [])) ∧
      (r = [] → ¬ Reg ℂ ord (T.take n) (T.getD n []))) :=
  ((Conv.all fun X : Fld => level_conv (K := X.K) hn hT h).and (level_conv (K := ℂ) hn hT h)).mono fun r hx => ⟨fun e X => (hx.1 X).1 e, fun e => hx.2.2 (hr ⟨ℂ⟩) e⟩

theorem take_succ_getD {T : List (PV Mono ℤ)} {n : ℕ} (h : n < T.length) : T.take (n + 1) = T.take n ++ [T.getD n []] := by
  rw [List.getD_eq_getElem _ _ h, List.take_succ_eq_append_getElem h]

theorem RA.take_succ {T : List (PV Mono ℤ)} (hT : TC ord T) {n : ℕ} (h : n < T.length) (hr : RA ord (T.take n)) (hreg : ∀ X : Fld, Reg X.K ord (T.take n) (T.getD n [])) : RA ord (T.take (n + 1)) := by
  rw [take_succ_getD h]
  exact RA.snoc.2 ⟨hr, lvl0_at hT h, hreg⟩

theorem firstIrr_conv (hn : ord.Nodup) {T : List (PV Mono ℤ)} (hT : TC ord T) : ∀ (m k : ℕ), k + m = T.length → RA ord (T.take k) →
    Conv (fun n => firstIrr (varCustom ord) true n T (List.range' k m)) (fun j => k ≤ j ∧ j ≤ T.length ∧ RA ord (T.take j) ∧ (j < T.length → ¬ Reg ℂ ord (T.take j) (T.getD j []))) := by
  intro m
  induction m with
  | zero =>
    intro k e h
    refine Conv.ok ⟨by omega, le_rfl, ?_, fun h => absurd h (lt_irrefl _)⟩
    rwa [show T.length = k by omega]
  | succ m ih =>
    intro k e h
    rw [List.range'_succ]
    have hk : k < T.length := by omega
    refine (level_all hn hT hk h).bind fun r hr => ?_
    by_cases h0 : r = []
    · simp only [if_pos h0]
      exact Conv.ok ⟨le_rfl, by omega, h, fun _ => hr.2 h0⟩
    · simp only [if_neg h0]
      exact (ih (k + 1) (by omega) (RA.take_succ hT hk h (hr.1 h0))).mono fun j hj => ⟨by omega, hj.2⟩

/-- the initials of the elements from `j` on do not vanish -/
def Ini {K : Type*} [Field K] (ord : List Var) (j : ℕ) (T : List (PV Mono ℤ)) (a : Var → K) : Prop :=
  ∀ i, j ≤ i → i < T.length → aeval a (toU (lv ord i) (val (T.getD i []))).leadingCoeff ≠ 0

theorem TC.replace {A A' B : List (PV Mono ℤ)} (hA : TC ord A') (h : TC ord (A ++ B)) (hl : A'.length = A.length) : TC ord (A' ++ B) := by
  induction B using List.reverseRecOn with
  | nil => simpa using hA
  | append_singleton B t ih =>
    rw [← List.append_assoc] at h ⊢
    rw [TC.snoc] at h ⊢
    obtain ⟨h1, h2⟩ := h
    have e : (A' ++ B).length = (A ++ B).length := by simp [hl]
    exact ⟨ih h1, by rw [e]; exact h2.len, h2.ok, by rw [e]; exact h2.vars, by rw [e]; exact h2.main⟩

theorem forall₂_snoc {α β : Type*} {Q : α → β → Prop} {A : List α} {t : α} {L : List β} (h : List.Forall₂ Q (A ++ [t]) L) : ∃ A' t', L = A' ++ [t'] ∧ List.Forall₂ Q A A' ∧ Q t t' := by
  have hl := h.length_eq
  rcases List.eq_nil_or_concat L with rfl | ⟨A', t', rfl⟩
  · simp at hl
  · rw [List.concat_eq_append] at h hl ⊢
    simp at hl
    have h1 := List.forall₂_take_append _ A' [t'] h
    have h2 := List.forall₂_drop_append _ A' [t'] h
    rw [← hl, List.take_left'] at h1
    · rw [← hl, List.drop_left'] at h2
      · exact ⟨A', t', rfl, h1, by simpa using h2⟩
      · rfl
    · rfl

/-- squarefree parts of the elements -/
theorem RC.sq {K : Type} [Field K] [CharZero K] {R : List (PV Mono ℤ)} (h : RC K ord R) : ∀ {R'}, List.Forall₂ (SqRel (varCustom ord)) R R' →
    RC K ord R' ∧ R'.length = R.length ∧ ∀ a : Var → K, Zr R' a ↔ Zr R a := by
  induction R using List.reverseRecOn with
  | nil => intro R' hf; cases hf; exact ⟨RC.nil, rfl, fun a => Iff.rfl⟩
  | append_singleton A t ih =>
    intro R' hf
    obtain ⟨A', t', rfl, h1, h2, h3⟩ := forall₂_snoc hf
    obtain ⟨k1, k2, k3⟩ := RC.snoc.1 h
    obtain ⟨i1, i2, i3⟩ := ih k1 h1
    have hv := h3.vars k2.val_ne
    refine ⟨RC.snoc.2 ⟨i1, ⟨by rw [i2]; exact k2.len, h2, by rw [i2, hv]; exact k2.vars, by rw [i2, hv]; exact k2.main⟩, fun a ha => ?_⟩, by simp [i2], fun a => ?_⟩
    · rw [i2]
      exact fun e => k3 a ((i3 a).1 ha) ((h3.init_iff a).2 e)
    · rw [Zr.append, Zr.append, i3, Zr.single, Zr.single, ← h3.zero_iff a]

/-- what `ZDtoRC` returns -/
structure ZOut (ord : List Var) (T : List (PV Mono ℤ)) (O : List (List (PV Mono ℤ))) : Prop where
  rc : ∀ C ∈ O, RA ord C ∧ C.length = T.length
  zr : ∀ (X : Fld) (a : Var → X.K), (∃ C ∈ O, Zr C a) ↔ Zr T a ∧ Ini ord 0 T a

theorem RC.ini {K : Type*} [Field K] {T : List (PV Mono ℤ)} (h : RC K ord T) {a : Var → K} (ha : Zr T a) : Ini ord 0 T a := by
  intro i _ hi
  have hr := h.2 _ _ _ (getD_split hi)
  have hlen : (T.take i).length = i := by rw [List.length_take]; omega
  have := hr a (fun t ht => ha t (List.mem_of_mem_take ht))
  rwa [hlen] at this

theorem Ini.append {K : Type*} [Field K] {A B : List (PV Mono ℤ)} {a : Var → K} : Ini ord 0 (A ++ B) a ↔ Ini ord 0 A a ∧ Ini ord A.length (A ++ B) a := by
  constructor
  · intro h
    refine ⟨fun i hi hl => ?_, fun i hi hl => h i (Nat.zero_le _) hl⟩
    have := h i hi (by rw [List.length_append]; omega)
    rwa [List.getD_append _ _ _ _ hl] at this
  · rintro ⟨h1, h2⟩ i _ hl
    by_cases hi : i < A.length
    · rw [List.getD_append _ _ _ _ hi]
      exact h1 i (Nat.zero_le _) hi
    · exact h2 i (by omega) hl

theorem Ini.congr {K : Type*} [Field K] {A A' B : List (PV Mono ℤ)} {a : Var → K} (h : A'.length = A.length) : Ini ord A'.length (A' ++ B) a ↔ Ini ord A.length (A ++ B) a := by
  unfold Ini
  refine forall_congr' fun i => ?_
  rw [h]
  refine imp_congr_right fun hi => ?_
  rw [List.length_append, List.length_append, h]
  refine imp_congr_right fun _ => ?_
  rw [List.getD_append_right _ _ _ _ (by omega), List.getD_append_right _ _ _ _ (by omega), h]

/-- one call: the recursive calls are on chains regular up to one level more -/
theorem zdStep (hn : ord.Nodup) {sq : PV Mono ℤ → Run (PV Mono ℤ)} (hsq : SqSpec (varCustom ord) sq) {T : List (PV Mono ℤ)} (hT : TC ord T) (h0 : T ≠ [])
    (ih : ∀ k, 1 ≤ k → k < T.length → RA ord (T.take k) → ¬ Reg ℂ ord (T.take k) (T.getD k []) → ∀ T', TC ord T' → T' ≠ [] → T'.length = T.length → RA ord (T'.take (k + 1)) →
      ConvR (fun n => zdToRC ord true sq n T') (ZOut ord T')) : ConvR (fun n => zdToRC ord true sq n T) (ZOut ord T) := by
  have hpos : 0 < T.length := List.length_pos_iff.2 h0
  refine ConvR.succ ?_
  simp only [zdToRC, if_neg h0]
  have h1 : RA ord (T.take 1) := RA.take_succ hT hpos (fun X => by rw [List.take_zero]; exact RC.nil) fun X => reg_zero (lvl0_at hT hpos)
  refine ConvR.lift (firstIrr_conv hn hT (T.length - 1) 1 (by omega) h1) fun k hk => ?_
  obtain ⟨k1, k2, k3, k4⟩ := hk
  by_cases hkl : k = T.length
  · simp only [if_pos hkl]
    rw [hkl, List.take_length] at k3
    refine ConvR.ret ⟨by simpa using k3, fun X a => ?_⟩
    simp only [List.mem_singleton, exists_eq_left]
    exact ⟨fun h => ⟨h, (k3 X).ini h⟩, fun h => h.1⟩
  · simp only [if_neg hkl]
    have hk : k < T.length := by omega
    have hlen : (T.take k).length = k := by rw [List.length_take]; omega
    have hlv := lvl0_at hT hk
    obtain ⟨l1, l2, l3, l4⟩ := hlv.init hn
    have hsplit : T = T.take k ++ T.drop k := (List.take_append_drop _ _).symm
    refine ConvR.lift (wrsd_all hn k3 l1 l4) fun W hW => ?_
    have key : ∀ R ∈ W.2, ∀ R', List.Forall₂ (SqRel (varCustom ord)) R R' → RA ord R' ∧ R'.length = k ∧ (∀ (X : Fld) (a : Var → X.K), Zr R' a ↔ Zr R a) ∧
        TC ord (R' ++ T.drop k) ∧ RA ord ((R' ++ T.drop k).take (k + 1)) := by
      intro R hR R' hf
      have hRl : R.length = k := by rw [((hW (Classical.arbitrary Fld)).g R hR).2, hlen]
      have hR' : RA ord R' := fun X => (((hW X).g R hR).1.sq hf).1
      have hl' : R'.length = k := by rw [← hRl]; exact hf.length_eq.symm
      have hz : ∀ (X : Fld) (a : Var → X.K), Zr R' a ↔ Zr R a := fun X => (((hW X).g R hR).1.sq hf).2.2
      have hTC : TC ord (R' ++ T.drop k) := TC.replace (A := T.take k) hR'.tc (by rw [← hsplit]; exact hT) (by rw [hl', hlen])
      refine ⟨hR', hl', hz, hTC, RA.take_succ hTC (by simp; omega) (by rw [← hl', List.take_left']; exact hR'; rfl) fun X => ?_⟩
      rw [List.take_left' hl', List.getD_append_right _ _ _ _ (by omega), hl', Nat.sub_self, show (T.drop k).getD 0 [] = T.getD k [] by simp [List.getD_eq_getElem?_getD]]
      intro a ha
      have := ((hW X).gz a).1 ⟨R, hR, (hz X a).1 ha⟩
      rw [l3] at this
      rw [hl']
      rw [hlen] at this
      exact this.2
    refine (ConvR.collect (Q := fun R O => (∀ C ∈ O, RA ord C ∧ C.length = T.length) ∧ ∀ (X : Fld) (a : Var → X.K), (∃ C ∈ O, Zr C a) ↔ Zr R a ∧ Zr (T.drop k) a ∧ Ini ord k T a) fun R hR => ?_).mono ?_
    · have hg := hW (Classical.arbitrary Fld)
      have hRok : ∀ c ∈ R, LP (varCustom ord) c ∧ c ≠ [] := by
        intro c hc
        obtain ⟨A, B, e⟩ := List.append_of_mem hc
        have := (hg.g R hR).1.1 A c B e
        exact ⟨this.ok, this.ne⟩
      refine ConvR.bind_finite (forall₂_finite (Q := SqRel (varCustom ord)) (l := R) fun c hc => sqf_finite (varCustom_ord ord) (val c))
        (runMap_post fun c hc => hsq c (hRok c hc).1 (hRok c hc).2) fun R' hf => ?_
      obtain ⟨e1, e2, e3, e4, e5⟩ := key R hR R' hf
      refine (ih k k1 hk k3 (k4 hk) _ e4 (by rw [Ne, List.append_eq_nil_iff]; rintro ⟨-, h⟩; rw [List.drop_eq_nil_iff] at h; omega) (by simp; omega) e5).mono fun O hO => ?_
      refine ⟨fun C hC => ⟨(hO.rc C hC).1, by rw [(hO.rc C hC).2]; simp; omega⟩, fun X a => ?_⟩
      rw [hO.zr, Zr.append, e3, and_assoc, Ini.append, e2]
      have hc : Ini ord k (R' ++ T.drop k) a ↔ Ini ord k T a := by
        have := Ini.congr (ord := ord) (A := T.take k) (A' := R') (B := T.drop k) (a := a) (by rw [e2, hlen])
        rwa [e2, hlen, ← hsplit] at this
      rw [hc]
      exact ⟨fun h => ⟨h.1, h.2.1, h.2.2.2⟩, fun h => ⟨h.1, h.2.1, (e1 X).ini ((e3 X a).2 h.1), h.2.2⟩⟩
    · rintro L ⟨g, rfl, hg⟩
      obtain ⟨m1, m2⟩ := forall₂_mem hg
      constructor
      · intro C hC
        obtain ⟨O, hO, hCO⟩ := List.mem_flatten.1 hC
        obtain ⟨R, hR, hQ⟩ := m2 O hO
        exact hQ.1 C hCO
      · intro X a
        have e1 : (∃ C ∈ g.flatten, Zr C a) ↔ (∃ R ∈ W.2, Zr R a) ∧ Zr (T.drop k) a ∧ Ini ord k T a := by
          constructor
          · rintro ⟨C, hC, hz⟩
            obtain ⟨O, hO, hCO⟩ := List.mem_flatten.1 hC
            obtain ⟨R, hR, hQ⟩ := m2 O hO
            obtain ⟨z1, z2⟩ := (hQ.2 X a).1 ⟨C, hCO, hz⟩
            exact ⟨⟨R, hR, z1⟩, z2⟩
          · rintro ⟨⟨R, hR, z1⟩, z2⟩
            obtain ⟨O, hO, hQ⟩ := m1 R hR
            obtain ⟨C, hCO, hz⟩ := (hQ.2 X a).2 ⟨z1, z2⟩
            exact ⟨C, List.mem_flatten.2 ⟨O, hO, hCO⟩, hz⟩
        rw [e1, (hW X).gz, l3, hlen]
        have e2 : Zr T a ↔ Zr (T.take k) a ∧ Zr (T.drop k) a := by rw [← Zr.append, ← hsplit]
        have e3 : Ini ord 0 T a ↔ Ini ord 0 (T.take k) a ∧ Ini ord k T a := by
          have := Ini.append (ord := ord) (A := T.take k) (B := T.drop k) (a := a)
          rwa [hlen, ← hsplit] at this
        rw [e2, e3]
        constructor
        · rintro ⟨⟨z1, -⟩, z2, z3⟩
          exact ⟨⟨z1, z2⟩, (k3 X).ini z1, z3⟩
        · rintro ⟨⟨z1, z2⟩, -, z3⟩
          exact ⟨⟨z1, z3 k le_rfl hk⟩, z2, z3⟩

theorem zdToRC_conv (hn : ord.Nodup) {sq : PV Mono ℤ → Run (PV Mono ℤ)} (hsq : SqSpec (varCustom ord) sq) : ∀ (m j : ℕ) (T : List (PV Mono ℤ)), TC ord T → T ≠ [] → RA ord (T.take j) →
    T.length ≤ j + m → ConvR (fun n => zdToRC ord true sq n T) (ZOut ord T) := by
  intro m
  induction m with
  | zero =>
    intro j T hT h0 hj hlen
    refine zdStep hn hsq hT h0 fun k hk hkl hrk hnr => ?_
    exfalso
    refine hnr ((hj ⟨ℂ⟩).2 _ (T.getD k []) (T.drop (k + 1)) ?_)
    rw [List.take_of_length_le (by omega)]
    exact getD_split hkl
  | succ m ih =>
    intro j T hT h0 hj hlen
    refine zdStep hn hsq hT h0 fun k hk hkl hrk hnr T' hT' h0' hl' hr' => ih (k + 1) T' hT' h0' hr' ?_
    by_contra hc
    refine hnr ((hj ⟨ℂ⟩).2 _ (T.getD k []) ((T.take j).drop (k + 1)) ?_)
    have e := getD_split (T := T.take j) (n := k) (by rw [List.length_take]; omega)
    rw [List.take_take, min_eq_left (by omega), List.getD_eq_getElem _ _ (by rw [List.length_take]; omega), List.getElem_take] at e
    rw [List.getD_eq_getElem _ _ hkl]; exact e

/-- what a run returns, whatever the fuel -/
theorem ConvR.sound {α : Type} {m : ℕ → Run (Option α)} {P : α → Prop} (h : ConvR m P) (hm : ∀ {n k}, n ≤ k → SubS (m n) (m k)) (n : ℕ) : Post (m n) fun r => ∀ a, r = some a → P a := by
  obtain ⟨N, hN⟩ := h
  rintro s ⟨r, rest⟩ e a (rfl : r = some a)
  obtain ⟨b, e', hb⟩ := hN _ (le_max_right n N) s _ (hm (le_max_left n N) s a rest e)
  cases e'
  exact hb

theorem zdToRC_ends (hn : ord.Nodup) {sq : PV Mono ℤ → Run (PV Mono ℤ)} (hsq : SqSpec (varCustom ord) sq) {T : List (PV Mono ℤ)} (hT : TC ord T) :
    ConvR (fun n => zdToRC ord true sq n T) (ZOut ord T) := by
  by_cases h0 : T = []
  · refine ConvR.succ ⟨0, fun n _ => ?_⟩
    simp only [zdToRC, if_pos h0]
    exact Post.fail
  · exact zdToRC_conv hn hsq T.length 0 T hT h0 (fun X => by rw [List.take_zero]; exact RC.nil) (by omega)

theorem zdToRC_sound (hn : ord.Nodup) {sq : PV Mono ℤ → Run (PV Mono ℤ)} (hsq : SqSpec (varCustom ord) sq) {T : List (PV Mono ℤ)} (hT : TC ord T) (n : ℕ) :
    Post (zdToRC ord true sq n T) fun r => ∀ O, r = some O → ZOut ord T O := (zdToRC_ends hn hsq hT).sound (fun h => zdToRC_mono ord sq h T) n

/-! ## `GRDforZD` -/

theorem bindR_some {α β : Type} {m : Run (Option α)} {f : α → Run (Option β)} {s rest : List ℕ} {b : β} (h : bindR m f s = some (some b, rest)) :
    ∃ a s', m s = some (some a, s') ∧ f a s' = some (some b, rest) := by
  simp only [bindR, Run.bind, Option.bind_eq_some_iff] at h
  obtain ⟨⟨r, s'⟩, h1, h2⟩ := h
  cases r with
  | none => simp [Run.ret] at h2
  | some a => exact ⟨a, s', h1, h2⟩

theorem bindR_none {α β : Type} {m : Run (Option α)} {f : α → Run (Option β)} {s rest : List ℕ} (h : bindR m f s = some (none, rest)) :
    m s = some (none, rest) ∨ ∃ a s', m s = some (some a, s') ∧ f a s' = some (none, rest) := by
  simp only [bindR, Run.bind, Option.bind_eq_some_iff] at h
  obtain ⟨⟨r, s'⟩, h1, h2⟩ := h
  cases r with
  | none =>
    left
    simp only [Run.ret, Option.some.injEq, Prod.mk.injEq, true_and] at h2
    rw [h1, h2]
  | some a => exact .inr ⟨a, s', h1, h2⟩

/-- the zeros at which no initial vanishes -/
theorem ini_iff (hn : ord.Nodup) {T : List (PV Mono ℤ)} (ht : TC ord T) {K : Type*} [Field K] {a : Var → K} :
    (Zr T a ∧ Ini ord 0 T a) ↔ ∀ t ∈ T, aeval a (val t) = 0 ∧ ∀ I, IsInit (varCustom ord) (val t) I → aeval a I ≠ 0 := by
  constructor
  · rintro ⟨z1, z2⟩ t htm
    refine ⟨z1 t htm, fun I hI => ?_⟩
    obtain ⟨i, hi, rfl⟩ := List.mem_iff_getElem.1 htm
    have hl := lvl0_at ht hi
    have hlen : (T.take i).length = i := by rw [List.length_take]; omega
    have := z2 i (Nat.zero_le _) hi
    rw [List.getD_eq_getElem _ _ hi] at this hl
    rw [(Charset.init_iff (varCustom_ord ord) (hl.isMain hn)).1 hI, hlen]
    exact this
  · intro h
    refine ⟨fun t htm => (h t htm).1, fun i _ hi => ?_⟩
    have hl := lvl0_at ht hi
    have hlen : (T.take i).length = i := by rw [List.length_take]; omega
    rw [List.getD_eq_getElem _ _ hi] at hl ⊢
    have := hl.isMain hn
    rw [hlen] at this
    exact (h _ (List.getElem_mem hi)).2 _ ((Charset.init_iff (varCustom_ord ord) this).2 rfl)

/-- a run whose first part gives triangular sets without free variables -/
theorem grdForZD_sound (hn : ord.Nodup) {sq : PV Mono ℤ → Run (PV Mono ℤ)} (hsq : SqSpec (varCustom ord) sq) {n : ℕ} {P : List (PV Mono ℤ)} {s rest : List ℕ} {O : List (List (PV Mono ℤ))}
    (h : grdForZD ord true sq n P s = some (some O, rest)) (hP : Good (varCustom ord) P) (h0 : P ≠ [])
    (hL : ∀ L s', wuCharset (varCustom ord) true sq n P s = some (some L, s') → ∀ T ∈ L, TC ord T) :
    (∀ C ∈ O, RA ord C) ∧ ∀ (X : Fld) (a : Var → X.K), (∃ C ∈ O, Zr C a) ↔ ∀ p ∈ P, aeval a (val p) = 0 := by
  obtain ⟨L, s', h1, h2⟩ := bindR_some h
  have hTC := hL L s' h1
  have hw := wuCharset_spec (varCustom_ord ord) hsq n P hP h0 _ _ h1 L rfl
  obtain ⟨g, rfl, hg⟩ := runCollect_post (Q := fun T O => ZOut ord T O) (fun T hT => zdToRC_sound hn hsq (hTC T hT) n) _ _ h2 O rfl
  obtain ⟨m1, m2⟩ := forall₂_mem hg
  refine ⟨fun C hC => ?_, fun X a => ?_⟩
  · obtain ⟨O, hO, hCO⟩ := List.mem_flatten.1 hC
    obtain ⟨T, hT, hQ⟩ := m2 O hO
    exact (hQ.rc C hCO).1
  · have hi := fun T hT => ini_iff hn (hTC T hT) (a := a)
    have e := hw.zeros a
    rw [List.forall_mem_map] at e
    rw [e]
    constructor
    · rintro ⟨C, hC, hz⟩
      obtain ⟨O, hO, hCO⟩ := List.mem_flatten.1 hC
      obtain ⟨T, hT, hQ⟩ := m2 O hO
      exact ⟨T, hT, (hi T hT).1 ((hQ.zr X a).1 ⟨C, hCO, hz⟩)⟩
    · rintro ⟨T, hT, hz⟩
      obtain ⟨O, hO, hQ⟩ := m1 T hT
      obtain ⟨C, hC, hz'⟩ := (hQ.zr X a).2 ((hi T hT).2 hz)
      exact ⟨C, List.mem_flatten.2 ⟨O, hO, hC⟩, hz'⟩

theorem grdForZD_len (hn : ord.Nodup) {sq : PV Mono ℤ → Run (PV Mono ℤ)} (hsq : SqSpec (varCustom ord) sq) {N n : ℕ} {P : List (PV Mono ℤ)} {s rest : List ℕ} {O : List (List (PV Mono ℤ))}
    (h : grdForZD ord true sq n P s = some (some O, rest))
    (hL : ∀ L s', wuCharset (varCustom ord) true sq n P s = some (some L, s') → ∀ T ∈ L, TC ord T ∧ T.length = N) : ∀ C ∈ O, C.length = N := by
  obtain ⟨L, s', h1, h2⟩ := bindR_some h
  have hTC := hL L s' h1
  obtain ⟨g, rfl, hg⟩ := runCollect_post (Q := fun T O => ZOut ord T O) (fun T hT => zdToRC_sound hn hsq (hTC T hT).1 n) _ _ h2 O rfl
  obtain ⟨m1, m2⟩ := forall₂_mem hg
  intro C hC
  obtain ⟨O, hO, hCO⟩ := List.mem_flatten.1 hC
  obtain ⟨T, hT, hQ⟩ := m2 O hO
  exact (hQ.rc C hCO).2.trans (hTC T hT).2

/-- no stream of draws leads to an endless run -/
theorem grdForZD_terminates (hn : ord.Nodup) {sq : PV Mono ℤ → Run (PV Mono ℤ)} (hsq : SqSpec (varCustom ord) sq) {P : List (PV Mono ℤ)} (hP : Good (varCustom ord) P) (h0 : P ≠ []) (s : List ℕ)
    (hL : ∀ n L s', wuCharset (varCustom ord) true sq n P s = some (some L, s') → ∀ T ∈ L, TC ord T) : ∃ N, ∀ n ≥ N, ∀ rest, grdForZD ord true sq n P s ≠ some (none, rest) := by
  obtain ⟨N, hN⟩ := wuCharset_terminates (varCustom_ord ord) hsq P hP h0
  by_cases h : ∃ n1 L s1, wuCharset (varCustom ord) true sq n1 P s = some (some L, s1)
  · obtain ⟨n1, L, s1, e1⟩ := h
    obtain ⟨N', hN'⟩ := ConvR.collect (f := fun n => zdToRC ord true sq n) (l := L) fun T hT => zdToRC_ends hn hsq (hL n1 L s1 e1 T hT)
    refine ⟨max n1 N', fun n hn' rest e => ?_⟩
    have e2 := wuCharset_mono sq (le_trans (le_max_left n1 N') hn') P s _ _ e1
    rcases bindR_none e with e3 | ⟨L', s', e3, e4⟩
    · rw [e2] at e3; simp at e3
    · rw [e2] at e3
      simp only [Option.some.injEq, Prod.mk.injEq] at e3
      obtain ⟨rfl, rfl⟩ := e3
      obtain ⟨x, hx, -⟩ := hN' n (le_trans (le_max_right n1 N') hn') s1 _ e4
      simp at hx
  · refine ⟨N, fun n hn' rest e => ?_⟩
    rcases bindR_none e with e3 | ⟨L', s', e3, e4⟩
    · exact hN n hn' s _ e3 rfl
    · exact h ⟨n, L', s', e3⟩

theorem grdForZD_sub (ord : List Var) {chk : Bool} {sq sq' : PV Mono ℤ → Run (PV Mono ℤ)} (h : ∀ F, Run.Sub (sq F) (sq' F)) (n : ℕ) (P : List (PV Mono ℤ)) :
    SubS (grdForZD ord chk sq n P) (grdForZD ord false sq' n P) :=
  SubS.bindR (wuCharset_sub h n P) fun C => runCollect_sub (fun T => zdToRC_sub ord h n T) C

end Charset
end CLPoly
