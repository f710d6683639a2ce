import Verif.Charset.Chain
import Mathlib.Data.ENat.Lattice
import Mathlib.Order.WellQuasiOrder

/-! # `charset`: correctness and termination -/

namespace CLPoly
namespace Charset
open Mono MvPolynomial Mgcd

variable {vc : Var → Var → Bool} {R : Type*} [CommRing R] [IsDomain R] [DecidableEq R] {gt : R → R → Bool}

/-- what `charset` returns for a nonempty list -/
structure IsCharset (vc : Var → Var → Bool) (P : List (MvPolynomial Var R)) (C : List (PV Mono R)) : Prop where
  ok : ∀ c ∈ C, LP vc c ∧ c ≠ []
  sub : ∀ c ∈ C, val c ∈ idl P
  alt : (∃ c, C = [c] ∧ isNumber c = true) ∨ C ≠ [] ∧ AscChain vc (C.map val) ∧ ∀ p ∈ P, ∃ m ∈ inits vc (C.map val), m * p ∈ idl (C.map val)
  vars : ∀ V : Finset Var, (∀ p ∈ P, p.vars ⊆ V) → ∀ c ∈ C, (val c).vars ⊆ V
  rem : (∃ c, C = [c] ∧ isNumber c = true) ∨ ∀ p : PV Mono R, LP vc p → val p ∈ P → chainRem vc true C p = some []

omit [CommRing R] [IsDomain R] [DecidableEq R] in
theorem mapM_mem {α β : Type*} {f : α → Option β} : ∀ {l : List α} {l' : List β}, l.mapM f = some l' → (∀ x ∈ l, ∃ y ∈ l', f x = some y) ∧ ∀ y ∈ l', ∃ x ∈ l, f x = some y := by
  intro l
  induction l with
  | nil => intro l' h; simp at h; subst h; simp
  | cons a l ih =>
    intro l' h
    rw [List.mapM_cons] at h
    obtain ⟨b, e1, h⟩ := Option.bind_eq_some_iff.1 h
    obtain ⟨bs, e2, h⟩ := Option.bind_eq_some_iff.1 h
    cases h
    obtain ⟨i1, i2⟩ := ih e2
    constructor
    · intro x hx
      rcases List.mem_cons.1 hx with rfl | hx
      · exact ⟨b, by simp, e1⟩
      · obtain ⟨y, hy, h⟩ := i1 x hx; exact ⟨y, List.mem_cons_of_mem _ hy, h⟩
    · intro y hy
      rcases List.mem_cons.1 hy with rfl | hy
      · exact ⟨a, by simp, e1⟩
      · obtain ⟨x, hx, h⟩ := i2 y hy; exact ⟨x, List.mem_cons_of_mem _ hx, h⟩

/-- the invariant of the loop -/
structure CInv (vc : Var → Var → Bool) (P : List (MvPolynomial Var R)) (F : List (PV Mono R)) : Prop where
  good : Good vc F
  ne : F ≠ []
  sub : ∀ f ∈ F, val f ∈ idl P
  vars : ∀ V : Finset Var, (∀ p ∈ P, p.vars ⊆ V) → ∀ f ∈ F, (val f).vars ⊆ V
  all : ∀ p ∈ P, ∃ f ∈ F, val f = p

/-- one iteration that does not end the loop -/
structure Step (vc : Var → Var → Bool) (gt : R → R → Bool) (F C rest : List (PV Mono R)) : Prop where
  bas : IsBasset vc F C
  ok : ∀ c ∈ C, LP vc c ∧ c ≠ []
  asc : AscChain vc (C.map val)
  cne : C ≠ []
  rne : rest ≠ []
  rok : Good vc rest
  red : ∀ r ∈ rest, ∀ c ∈ C, (val r).degreeOf (pFirstVar c) < (val c).degreeOf (pFirstVar c)
  vars : ∀ V : Finset Var, (∀ f ∈ F, (val f).vars ⊆ V) → ∀ r ∈ rest, (val r).vars ⊆ V
  sub : ∀ r ∈ rest, val r ∈ idl (F.map val)

theorem basset_ne {F B : List (PV Mono R)} (h : IsBasset vc F B) (hF : F ≠ []) : B ≠ [] := by
  obtain ⟨f, hf⟩ := List.exists_mem_of_ne_nil F hF
  obtain ⟨b, hb, -⟩ := h.max f hf
  exact List.ne_nil_of_mem hb

omit [IsDomain R] in
theorem chain_head {C : List (PV Mono R)} (ho : VarOrd vc) (hC : ∀ c ∈ C, LP vc c) (h : (∃ c, C = [c] ∧ isNumber c = true) ∨ AscChain vc (C.map val)) (hne : C ≠ []) :
    (isNumber (C.headD []) = true ∧ ∃ c, C = [c] ∧ isNumber c = true) ∨ isNumber (C.headD []) = false ∧ AscChain vc (C.map val) := by
  rcases h with ⟨c, rfl, h⟩ | h
  · left; exact ⟨h, c, rfl, h⟩
  · right
    refine ⟨?_, h⟩
    cases C with
    | nil => exact absurd rfl hne
    | cons c C => exact (num_false ho (hC c (by simp))).2 (h.1 _ (by simp))

/-- one iteration of the loop -/
theorem step_spec (ho : VarOrd vc) {F : List (PV Mono R)} (hF : Good vc F) (hne : F ≠ []) :
    (∃ C, (∀ n, charsetLoop vc true gt (n + 1) F = some (some C)) ∧ IsBasset vc F C ∧ ((∃ c, C = [c] ∧ isNumber c = true) ∨ C ≠ [] ∧ AscChain vc (C.map val) ∧
      ∀ f ∈ F, chainRem vc true C f = some [] ∧ ∃ m ∈ inits vc (C.map val), m * val f ∈ idl (C.map val))) ∨
    (∀ n, charsetLoop vc true gt (n + 1) F = some none) ∨
    ∃ C rest, Step vc gt F C rest ∧ ∀ n, charsetLoop vc true gt (n + 1) F = charsetLoop vc true gt n (rest.foldl (fun s x => setInsert vc gt x s) F) := by
  obtain ⟨C, e, hB⟩ := basset_spec ho hF
  have hC : ∀ c ∈ C, LP vc c ∧ c ≠ [] := fun c hc => hF c (hB.sub c hc)
  have cne := basset_ne hB hne
  rcases chain_head ho (fun c hc => (hC c hc).1) hB.chain cne with ⟨h1, h2⟩ | ⟨h1, h2⟩
  · exact .inl ⟨C, fun n => by rw [charsetLoop, e, Option.bind_some, if_pos h1], hB, .inl h2⟩
  have h1' : ¬ isNumber (C.headD []) = true := by rw [h1]; simp
  cases hm : F.mapM (chainRem vc true C) with
  | none => exact .inr (.inl fun n => by rw [charsetLoop, e, Option.bind_some, if_neg h1', hm])
  | some rs =>
    obtain ⟨k1, k2⟩ := mapM_mem hm
    have spec := fun {f g : PV Mono R} (hf : f ∈ F) (h : chainRem vc true C f = some g) => chainRem_spec ho (hF f hf).1 (fun c hc => (hC c hc).1) h2 h
    by_cases hr : rs.filter (fun f => f ≠ []) = []
    · refine .inl ⟨C, fun n => by rw [charsetLoop, e, Option.bind_some, if_neg h1', hm]; exact if_pos hr, hB, .inr ⟨cne, h2, fun f hf => ?_⟩⟩
      obtain ⟨g, hg, hfg⟩ := k1 f hf
      obtain ⟨-, -, -, m, hm, hmem⟩ := spec hf hfg
      have : g = [] := by
        by_contra hgn
        have : g ∈ rs.filter (fun f => f ≠ []) := List.mem_filter.2 ⟨hg, by simpa using hgn⟩
        rw [hr] at this; simp at this
      subst this
      rw [val_nil, sub_zero] at hmem
      exact ⟨hfg, m, hm, hmem⟩
    · have mem : ∀ r ∈ rs.filter (fun f => f ≠ []), r ≠ [] ∧ ∃ f ∈ F, chainRem vc true C f = some r := fun r h => by
        obtain ⟨a, b⟩ := List.mem_filter.1 h
        exact ⟨by simpa using b, k2 r a⟩
      refine .inr (.inr ⟨C, _, ⟨hB, hC, h2, cne, hr, ?_, ?_, ?_, ?_⟩, fun n => by rw [charsetLoop, e, Option.bind_some, if_neg h1', hm]; exact if_neg hr⟩)
      · intro r hr
        obtain ⟨a, f, hf, hfr⟩ := mem r hr
        exact ⟨(spec hf hfr).1, a⟩
      · intro r hr
        obtain ⟨a, f, hf, hfr⟩ := mem r hr
        exact (spec hf hfr).2.1
      · intro V hV r hr
        obtain ⟨a, f, hf, hfr⟩ := mem r hr
        exact (spec hf hfr).2.2.1 V (hV f hf) fun c hc => hV c (hB.sub c hc)
      · intro r hr
        obtain ⟨a, f, hf, hfr⟩ := mem r hr
        obtain ⟨-, -, -, m, -, hmem⟩ := spec hf hfr
        have i1 : m * val f ∈ idl (F.map val) := Ideal.mul_mem_left _ _ (Ideal.subset_span (List.mem_map.2 ⟨f, hf, rfl⟩))
        have i2 := idl_mono (D := F.map val) (fun c hc => by
          obtain ⟨d, hd, rfl⟩ := List.mem_map.1 hc
          exact List.mem_map.2 ⟨d, hB.sub d hd, rfl⟩) hmem
        have := sub_mem i1 i2
        rwa [sub_sub_cancel] at this

theorem Step.next (ho : VarOrd vc) (hg : Lawful (fun _ : R => True) gt) {F C rest : List (PV Mono R)} (hF : Good vc F) (h : Step vc gt F C rest) :
    Good vc (rest.foldl (fun s x => setInsert vc gt x s) F) ∧ ∀ y, y ∈ rest.foldl (fun s x => setInsert vc gt x s) F ↔ y ∈ rest ∨ y ∈ F := by
  have hm : ∀ y, y ∈ rest.foldl (fun s x => setInsert vc gt x s) F ↔ y ∈ rest ∨ y ∈ F := fun y => mem_insertAll ho hg (fun f hf => (h.rok f hf).1) (fun f hf => (hF f hf).1)
  refine ⟨fun f hf => ?_, hm⟩
  rcases (hm f).1 hf with hf | hf
  · exact h.rok f hf
  · exact hF f hf

theorem charsetLoop_spec (ho : VarOrd vc) (hg : Lawful (fun _ : R => True) gt) {P : List (MvPolynomial Var R)} : ∀ (n : ℕ) {F C : List (PV Mono R)}, CInv vc P F →
    charsetLoop vc true gt n F = some (some C) → IsCharset vc P C := by
  intro n
  induction n with
  | zero => intro F C _ h; simp [charsetLoop] at h
  | succ n ih =>
    intro F C inv h
    rcases step_spec (gt := gt) ho inv.good inv.ne with ⟨C', e, hB, hr⟩ | e | ⟨C', rest, hs, e⟩
    · rw [e n] at h
      simp only [Option.some.injEq] at h
      subst h
      refine ⟨fun c hc => inv.good c (hB.sub c hc), fun c hc => inv.sub c (hB.sub c hc), ?_, fun V hV c hc => inv.vars V hV c (hB.sub c hc), ?_⟩
      · rcases hr with hr | ⟨h1, h2, h3⟩
        · exact .inl hr
        · refine .inr ⟨h1, h2, fun p hp => ?_⟩
          obtain ⟨f, hf, rfl⟩ := inv.all p hp
          exact (h3 f hf).2
      · rcases hr with hr | ⟨h1, h2, h3⟩
        · exact .inl hr
        · refine .inr fun p hp hpP => ?_
          obtain ⟨f, hf, e⟩ := inv.all _ hpP
          rw [← (inv.good f hf).1.ext (lex_ord ho) hp e]
          exact (h3 f hf).1
    · rw [e n] at h; simp at h
    · rw [e n] at h
      obtain ⟨g1, g2⟩ := hs.next ho hg inv.good
      refine ih ⟨g1, ?_, ?_, ?_, ?_⟩ h
      · obtain ⟨f, hf⟩ := List.exists_mem_of_ne_nil F inv.ne
        exact List.ne_nil_of_mem ((g2 f).2 (.inr hf))
      · intro f hf
        rcases (g2 f).1 hf with hf | hf
        · have h1 : idl (F.map val) ≤ idl P := Ideal.span_le.2 fun c hc => by
            obtain ⟨d, hd, rfl⟩ := List.mem_map.1 (show c ∈ F.map val from hc)
            exact inv.sub d hd
          exact h1 (hs.sub f hf)
        · exact inv.sub f hf
      · intro V hV f hf
        rcases (g2 f).1 hf with hf | hf
        · exact hs.vars V (inv.vars V hV) f hf
        · exact inv.vars V hV f hf
      · intro p hp
        obtain ⟨f, hf, e⟩ := inv.all p hp
        exact ⟨f, (g2 f).2 (.inr hf), e⟩

theorem cinv_start (ho : VarOrd vc) (hg : Lawful (fun _ : R => True) gt) {P : List (PV Mono R)} (hP : Good vc P) (hne : P ≠ []) :
    CInv vc (P.map val) (P.foldl (fun s x => setInsert vc gt x s) []) := by
  have hm : ∀ y, y ∈ P.foldl (fun s x => setInsert vc gt x s) [] ↔ y ∈ P := fun y => by
    rw [mem_insertAll ho hg (fun f hf => (hP f hf).1) (by simp)]; simp
  refine ⟨fun f hf => hP f ((hm f).1 hf), ?_, fun f hf => Ideal.subset_span (List.mem_map.2 ⟨f, (hm f).1 hf, rfl⟩), fun V hV f hf => hV _ (List.mem_map.2 ⟨f, (hm f).1 hf, rfl⟩), ?_⟩
  · obtain ⟨f, hf⟩ := List.exists_mem_of_ne_nil P hne
    exact List.ne_nil_of_mem ((hm f).2 hf)
  · intro p hp
    obtain ⟨f, hf, e⟩ := List.mem_map.1 hp
    exact ⟨f, (hm f).2 hf, e⟩

theorem charset_spec (ho : VarOrd vc) (hg : Lawful (fun _ : R => True) gt) {P C : List (PV Mono R)} (hP : Good vc P) (hne : P ≠ []) {n : ℕ}
    (h : charset vc true gt n P = some (some C)) : IsCharset vc (P.map val) C := by
  unfold charset at h
  rw [if_neg hne] at h
  exact charsetLoop_spec ho hg n (cinv_start ho hg hP hne) h

/-- a run of the checked variant is a run of the code -/
theorem charsetLoop_code {chk : Bool} : ∀ (n : ℕ) {F C : List (PV Mono R)}, charsetLoop vc chk gt n F = some (some C) → charsetLoop vc false gt n F = some (some C) := by
  intro n
  induction n with
  | zero => intro F C h; simp [charsetLoop] at h
  | succ n ih =>
    intro F C h
    rw [charsetLoop] at h ⊢
    obtain ⟨B, e, h⟩ := Option.bind_eq_some_iff.1 h
    rw [e, Option.bind_some]
    by_cases hn : isNumber (B.headD []) = true
    · rw [if_pos hn] at h ⊢; exact h
    rw [if_neg hn] at h ⊢
    cases hm : F.mapM (chainRem vc chk B) with
    | none => rw [hm] at h; simp at h
    | some rs =>
      have hm' : F.mapM (chainRem vc false B) = some rs := by
        have : ∀ {l : List (PV Mono R)} {l'}, l.mapM (chainRem vc chk B) = some l' → l.mapM (chainRem vc false B) = some l' := by
          intro l
          induction l with
          | nil => intro l' h; exact h
          | cons a l ih =>
            intro l' h
            rw [List.mapM_cons] at h ⊢
            obtain ⟨b, e1, h⟩ := Option.bind_eq_some_iff.1 h
            obtain ⟨bs, e2, h⟩ := Option.bind_eq_some_iff.1 h
            rw [chainRem_code e1, ih e2]; exact h
        exact this hm
      rw [hm] at h; rw [hm']
      dsimp only at h ⊢
      split at h
      · rename_i hr; rw [if_pos hr]; exact h
      · rename_i hr; rw [if_neg hr]; exact ih h

omit [IsDomain R] in
theorem charsetLoop_mono {chk : Bool} : ∀ {n m : ℕ} {F : List (PV Mono R)} {r}, n ≤ m → charsetLoop vc chk gt n F = some r → charsetLoop vc chk gt m F = some r := by
  intro n
  induction n with
  | zero => intro m F r _ h; simp [charsetLoop] at h
  | succ n ih =>
    intro m F r hnm h
    obtain ⟨m, rfl⟩ : ∃ k, m = k + 1 := ⟨m - 1, by omega⟩
    rw [charsetLoop] at h ⊢
    obtain ⟨B, e, h⟩ := Option.bind_eq_some_iff.1 h
    rw [e, Option.bind_some]
    by_cases hn : isNumber (B.headD []) = true
    · rw [if_pos hn] at h ⊢; exact h
    rw [if_neg hn] at h ⊢
    cases hm : F.mapM (chainRem vc chk B) with
    | none => rw [hm] at h; exact h
    | some rs =>
      rw [hm] at h
      dsimp only at h ⊢
      split at h
      · rename_i hr; rw [if_pos hr]; exact h
      · rename_i hr; rw [if_neg hr]; exact ih (by omega) h

omit [IsDomain R] in
theorem charset_mono {chk : Bool} {n m : ℕ} {P : List (PV Mono R)} {r} (hnm : n ≤ m) (h : charset vc chk gt n P = some r) : charset vc chk gt m P = some r := by
  unfold charset at *
  split at h
  · rename_i e; rw [if_pos e]; exact h
  · rename_i e; rw [if_neg e]; exact charsetLoop_mono hnm h

theorem charset_code {chk : Bool} {n : ℕ} {P C : List (PV Mono R)} (h : charset vc chk gt n P = some (some C)) : charset vc false gt n P = some (some C) := by
  unfold charset at *
  split at h
  · rename_i e; rw [if_pos e]; exact h
  · rename_i e; rw [if_neg e]; exact charsetLoop_code n h

/-! ## termination -/

/-- the degrees of the chain in its main variables, `⊤` for the other variables -/
noncomputable def rankV (C : List (PV Mono R)) (v : Var) : ℕ∞ := ⨅ c ∈ {c | c ∈ C ∧ pFirstVar c = v}, ((val c).degreeOf v : ℕ∞)

/-- the ranks grow componentwise: what is reduced by the first chain is reduced by the second -/
theorem red_of_rank {C D : List (PV Mono R)} {r : PV Mono R} {v : Var} (h : rankV C v ≤ rankV D v) {d : PV Mono R} (hd : d ∈ D) (hv : pFirstVar d = v)
    (hr : ∀ c ∈ C, (val r).degreeOf (pFirstVar c) < (val c).degreeOf (pFirstVar c)) : (val r).degreeOf v < (val d).degreeOf v := by
  have h1 : rankV D v ≤ ((val d).degreeOf v : ℕ∞) := iInf₂_le d ⟨hd, hv⟩
  have h2 : (((val r).degreeOf v + 1 : ℕ) : ℕ∞) ≤ rankV C v := le_iInf₂ fun c hc => by
    have := hr c hc.1
    rw [hc.2] at this
    exact_mod_cast this
  exact_mod_cast h2.trans (h.trans h1)

theorem charsetLoop_terminates (ho : VarOrd vc) (hg : Lawful (fun _ : R => True) gt) {F : List (PV Mono R)} (hF : Good vc F) (hne : F ≠ []) :
    ∃ n, charsetLoop vc true gt n F ≠ none := by
  classical
  by_contra hc
  push Not at hc
  obtain ⟨V, hV⟩ : ∃ V : Finset Var, ∀ f ∈ F, (val f).vars ⊆ V :=
    ⟨F.toFinset.biUnion fun f => (val f).vars, fun f hf => Finset.subset_biUnion_of_mem (fun f : PV Mono R => (val f).vars) (List.mem_toFinset.2 hf)⟩
  let S := {F : List (PV Mono R) // Good vc F ∧ F ≠ [] ∧ (∀ f ∈ F, (val f).vars ⊆ V) ∧ ∀ n, charsetLoop vc true gt n F = none}
  have next : ∀ s : S, ∃ t : S, ∃ C rest, Step vc gt s.1 C rest ∧ ∀ y, y ∈ t.1 ↔ y ∈ rest ∨ y ∈ s.1 := by
    rintro ⟨F, hF, hne, hV, hn⟩
    rcases step_spec (gt := gt) ho hF hne with ⟨C, e, -⟩ | e | ⟨C, rest, hs, e⟩
    · have := e 0; rw [hn] at this; simp at this
    · have := e 0; rw [hn] at this; simp at this
    · obtain ⟨g1, g2⟩ := hs.next ho hg hF
      refine ⟨⟨_, g1, ?_, ?_, fun n => by rw [← e n, hn]⟩, C, rest, hs, g2⟩
      · obtain ⟨f, hf⟩ := List.exists_mem_of_ne_nil F hne
        exact List.ne_nil_of_mem ((g2 f).2 (.inr hf))
      · intro f hf
        rcases (g2 f).1 hf with hf | hf
        · exact hs.vars V hV f hf
        · exact hV f hf
  choose nx C rest hst hmem using next
  let s : ℕ → S := fun k => Nat.rec ⟨F, hF, hne, hV, hc⟩ (fun _ t => nx t) k
  have mono : ∀ k m, k ≤ m → ∀ y ∈ (s k).1, y ∈ (s m).1 := by
    intro k m hkm
    induction m, hkm using Nat.le_induction with
    | base => exact fun y h => h
    | succ m _ ih => exact fun y h => (hmem (s m) y).2 (.inr (ih y h))
  obtain ⟨k, m, hkm, hle⟩ := wellQuasiOrdered_le (α := V → ℕ∞) (fun k v => rankV (C (s k)) v)
  obtain ⟨r, hr⟩ := List.exists_mem_of_ne_nil _ (hst (s k)).rne
  have hr' : r ∈ (s m).1 := mono (k + 1) m hkm r ((hmem (s k) r).2 (.inl hr))
  obtain ⟨d, hd, hnd⟩ := (hst (s m)).bas.max r hr'
  have hdok := ((hst (s m)).ok d hd)
  have hrok := (hst (s k)).rok r hr
  have hdn : isNumber d = false := (num_false ho hdok.1).2 ((hst (s m)).asc.1 _ (List.mem_map.2 ⟨d, hd, rfl⟩))
  obtain ⟨md, -⟩ := main_spec ho hdok.1 hdn
  rw [Bool.eq_false_iff, Ne, isReduced_iff ho hrok.1 hdok.1 hrok.2] at hnd
  refine hnd ⟨?_, _, md, ?_⟩
  · intro hz
    obtain ⟨c, hc1, hc2⟩ := (hst (s m)).bas.num r hr' ((num_iff ho hrok.1).2 hz)
    rw [hc1, List.mem_singleton] at hd
    rw [hd, hc2] at hdn; exact absurd hdn (by simp)
  · have hdV : pFirstVar d ∈ V := (s m).2.2.2.1 d ((hst (s m)).bas.sub d hd) md.1
    exact red_of_rank (hle ⟨_, hdV⟩) hd rfl ((hst (s k)).red r hr)

theorem charset_terminates (ho : VarOrd vc) (hg : Lawful (fun _ : R => True) gt) {P : List (PV Mono R)} (hP : Good vc P) :
    ∃ n, charset vc true gt n P ≠ none := by
  unfold charset
  by_cases hne : P = []
  · exact ⟨0, by rw [if_pos hne]; simp⟩
  · simp only [if_neg hne]
    have h := cinv_start ho hg hP hne
    exact charsetLoop_terminates ho hg h.good h.ne

end Charset
end CLPoly
