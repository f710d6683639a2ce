import Verif.Charset.RegSqf

/-! # `GRDforZDSAS`: semi-algebraic systems with finitely many zeros -/

namespace CLPoly
namespace Charset
open Mono MvPolynomial Mgcd Run

variable {ord : List Var}

/-- chains of length `N` -/
def Chs (ord : List Var) (N : ℕ) (O : List (List (PV Mono ℤ))) : Prop := ∀ C ∈ O, RA ord C ∧ C.length = N

/-- a polynomial in the `N` smallest variables -/
def InLo (ord : List Var) (N : ℕ) (f : PV Mono ℤ) : Prop := LP (varCustom ord) f ∧ (val f).vars ⊆ Lo ord N

theorem nonzeroOn_sound (hn : ord.Nodup) {N : ℕ} (n : ℕ) : ∀ (H : List (PV Mono ℤ)) (O : List (List (PV Mono ℤ))), (∀ h ∈ H, InLo ord N h) → Chs ord N O →
    Snd (nonzeroOn ord true n H O) fun O' => Chs ord N O' ∧ ∀ (X : Fld) (a : Var → X.K), (∃ C ∈ O', Zr C a) ↔ (∃ C ∈ O, Zr C a) ∧ ∀ h ∈ H, aeval a (val h) ≠ 0 := by
  intro H
  induction H with
  | nil => intro O _ hO; exact Snd.ok ⟨hO, fun X a => by simp⟩
  | cons h H ih =>
    intro O hH hO
    obtain ⟨h1, h2⟩ := hH h (by simp)
    rw [nonzeroOn]
    refine (Snd.collect (Q := fun T s => Chs ord N s ∧ ∀ (X : Fld) (a : Var → X.K), (∃ C ∈ s, Zr C a) ↔ Zr T a ∧ aeval a (val h) ≠ 0) fun T hT => ?_).bind fun O' hO' => ?_
    · obtain ⟨t1, t2⟩ := hO T hT
      have hv : (val h).vars ⊆ Lo ord T.length := t2.symm ▸ h2
      refine ((Conv.all fun X : Fld => iterResB_conv (K := X.K) hn t1.tc h1 hv).snd (fun h => iterResB_mono h _ _) n).bind fun r hr => ?_
      by_cases h0 : r = []
      · rw [if_pos h0]
        refine ((wrsd_all hn t1 h1 hv).snd (fun h => wrsd_mono ord h _ _) n).bind fun W hW => Snd.ok ⟨fun C hC => ⟨fun X => ((hW X).g C hC).1, ((hW ⟨ℂ⟩).g C hC).2.trans t2⟩, fun X a => (hW X).gz a⟩
      · rw [if_neg h0]
        refine Snd.ok ⟨fun C hC => by rw [List.mem_singleton] at hC; exact hC ▸ ⟨t1, t2⟩, fun X a => ?_⟩
        simp only [List.mem_singleton, exists_eq_left]
        exact ⟨fun hz => ⟨hz, (hr X).ne h0 hz⟩, fun hz => hz.1⟩
    · refine (ih O' (fun h hh => hH h (List.mem_cons_of_mem _ hh)) fun C hC => ?_).mono fun O'' hO'' => ⟨hO''.1, fun X a => ?_⟩
      · obtain ⟨T, -, s, hs, hCs⟩ := hO'.2 C hC
        exact hs.1 C hCs
      · rw [hO''.2 X a, List.forall_mem_cons]
        have : (∃ C ∈ O', Zr C a) ↔ (∃ C ∈ O, Zr C a) ∧ aeval a (val h) ≠ 0 := by
          constructor
          · rintro ⟨C, hC, hz⟩
            obtain ⟨T, hT, s, hs, hCs⟩ := hO'.2 C hC
            have := (hs.2 X a).1 ⟨C, hCs, hz⟩
            exact ⟨⟨T, hT, this.1⟩, this.2⟩
          · rintro ⟨⟨T, hT, hz⟩, hne⟩
            obtain ⟨s, hs, hsub⟩ := hO'.1 T hT
            obtain ⟨C, hC, hz'⟩ := (hs.2 X a).2 ⟨hz, hne⟩
            exact ⟨C, hsub C hC, hz'⟩
        rw [this, and_assoc]

/-- an ordered field -/
structure OFld : Type 1 where
  K : Type
  [f : Field K]
  [o : LinearOrder K]
  [s : IsStrictOrderedRing K]
attribute [instance] OFld.f OFld.o OFld.s

/-- the field -/
def OFld.toFld (X : OFld) : Fld := ⟨X.K⟩

/-- a chain and polynomials that vanish at none of its zeros -/
def Pr (ord : List Var) (N : ℕ) (u : List (PV Mono ℤ) × List (PV Mono ℤ)) : Prop :=
  (RA ord u.1 ∧ u.1.length = N) ∧ ∀ p ∈ u.2, ∀ (X : Fld) (a : Var → X.K), Zr u.1 a → aeval a (val p) ≠ 0

/-- the point satisfies the equations and strict inequalities -/
def Sat {X : OFld} (u : List (PV Mono ℤ) × List (PV Mono ℤ)) (a : Var → X.K) : Prop := Zr u.1 a ∧ ∀ p ∈ u.2, 0 < aeval a (val p)

theorem splitNonneg_sound (hn : ord.Nodup) {N : ℕ} (n : ℕ) : ∀ (G : List (PV Mono ℤ)) (U : List (List (PV Mono ℤ) × List (PV Mono ℤ))), (∀ g ∈ G, InLo ord N g) → (∀ u ∈ U, Pr ord N u) →
    Snd (splitNonneg ord true n G U) fun U' => (∀ u ∈ U', Pr ord N u) ∧ ∀ (X : OFld) (a : Var → X.K), (∃ u ∈ U', Sat u a) ↔ (∃ u ∈ U, Sat u a) ∧ ∀ g ∈ G, 0 ≤ aeval a (val g) := by
  intro G
  induction G with
  | nil => intro U _ hU; exact Snd.ok ⟨hU, fun X a => by simp⟩
  | cons g G ih =>
    intro U hG hU
    obtain ⟨h1, h2⟩ := hG g (by simp)
    rw [splitNonneg]
    refine (Snd.collect (Q := fun u s => (∀ v ∈ s, Pr ord N v) ∧ ∀ (X : OFld) (a : Var → X.K), (∃ v ∈ s, Sat v a) ↔ Sat u a ∧ 0 ≤ aeval a (val g)) fun u hu => ?_).bind fun U' hU' => ?_
    · obtain ⟨⟨t1, t2⟩, t3⟩ := hU u hu
      have hv : (val g).vars ⊆ Lo ord u.1.length := t2.symm ▸ h2
      refine ((Conv.all fun X : Fld => iterResB_conv (K := X.K) hn t1.tc h1 hv).snd (fun h => iterResB_mono h _ _) n).bind fun r hr => ?_
      have hsnoc : ∀ {X : OFld} (a : Var → X.K) (c : List (PV Mono ℤ)), Sat (c, u.2 ++ [g]) a ↔ Sat (c, u.2) a ∧ 0 < aeval a (val g) := by
        intro X a c
        unfold Sat
        rw [List.forall_mem_append, and_assoc]
        simp
      by_cases h0 : r = []
      · rw [if_pos h0]
        refine ((wrsd_all hn t1 h1 hv).snd (fun h => wrsd_mono ord h _ _) n).bind fun W hW => Snd.ok ⟨fun v hv => ?_, fun X a => ?_⟩
        · rcases List.mem_append.1 hv with hv | hv <;> obtain ⟨c, hc, rfl⟩ := List.mem_map.1 hv
          · exact ⟨⟨fun X => ((hW X).h c hc).1, ((hW ⟨ℂ⟩).h c hc).2.trans t2⟩, fun p hp X a ha => t3 p hp X a (((hW X).hz a).1 ⟨c, hc, ha⟩).1⟩
          · refine ⟨⟨fun X => ((hW X).g c hc).1, ((hW ⟨ℂ⟩).g c hc).2.trans t2⟩, fun p hp X a ha => ?_⟩
            have hz := ((hW X).gz a).1 ⟨c, hc, ha⟩
            rcases List.mem_append.1 hp with hp | hp
            · exact t3 p hp X a hz.1
            · rw [List.mem_singleton.1 hp]; exact hz.2
        · have e1 := (hW X.toFld).hz a
          have e2 := (hW X.toFld).gz a
          constructor
          · rintro ⟨v, hv, hs⟩
            rcases List.mem_append.1 hv with hv | hv <;> obtain ⟨c, hc, rfl⟩ := List.mem_map.1 hv
            · have := e1.1 ⟨c, hc, hs.1⟩
              have h' : aeval a (val g) = (0 : X.K) := this.2
              exact ⟨⟨this.1, hs.2⟩, h'.ge⟩
            · have hs' := (hsnoc a c).1 hs
              have := e2.1 ⟨c, hc, hs.1⟩
              exact ⟨⟨this.1, hs'.1.2⟩, hs'.2.le⟩
          · rintro ⟨hs, hg⟩
            rcases hg.eq_or_lt with hg | hg
            · obtain ⟨c, hc, hz⟩ := e1.2 ⟨hs.1, hg.symm⟩
              exact ⟨(c, u.2), List.mem_append_left _ (List.mem_map.2 ⟨c, hc, rfl⟩), hz, hs.2⟩
            · obtain ⟨c, hc, hz⟩ := e2.2 ⟨hs.1, hg.ne'⟩
              exact ⟨(c, u.2 ++ [g]), List.mem_append_right _ (List.mem_map.2 ⟨c, hc, rfl⟩), (hsnoc a c).2 ⟨⟨hz, hs.2⟩, hg⟩⟩
      · rw [if_neg h0]
        refine Snd.ok ⟨fun v hv => ?_, fun X a => ?_⟩
        · rw [List.mem_singleton] at hv
          subst hv
          refine ⟨⟨t1, t2⟩, fun p hp X a ha => ?_⟩
          rcases List.mem_append.1 hp with hp | hp
          · exact t3 p hp X a ha
          · rw [List.mem_singleton.1 hp]; exact (hr X).ne h0 ha
        · simp only [List.mem_singleton, exists_eq_left]
          rw [hsnoc a u.1]
          refine and_congr_right fun hs => ?_
          have := (hr X.toFld).ne h0 hs.1
          exact ⟨fun h => h.le, fun h => lt_of_le_of_ne h this.symm⟩
    · refine (ih U' (fun h hh => hG h (List.mem_cons_of_mem _ hh)) fun C hC => ?_).mono fun O'' hO'' => ⟨hO''.1, fun X a => ?_⟩
      · obtain ⟨T, -, s, hs, hCs⟩ := hU'.2 C hC
        exact hs.1 C hCs
      · rw [hO''.2 X a, List.forall_mem_cons]
        have : (∃ C ∈ U', Sat C a) ↔ (∃ C ∈ U, Sat C a) ∧ 0 ≤ aeval a (val g) := by
          constructor
          · rintro ⟨C, hC, hz⟩
            obtain ⟨T, hT, s, hs, hCs⟩ := hU'.2 C hC
            have := (hs.2 X a).1 ⟨C, hCs, hz⟩
            exact ⟨⟨T, hT, this.1⟩, this.2⟩
          · rintro ⟨⟨T, hT, hz⟩, hne⟩
            obtain ⟨s, hs, hsub⟩ := hU'.1 T hT
            obtain ⟨C, hC, hz'⟩ := (hs.2 X a).2 ⟨hz, hne⟩
            exact ⟨C, hsub C hC, hz'⟩
        rw [this, and_assoc]

/-- what `GRDforZDSAS` returns -/
structure SasOut (ord : List Var) (N : ℕ) (P G1 G2 H : List (PV Mono ℤ)) (O : List (List (PV Mono ℤ) × List (PV Mono ℤ))) : Prop where
  pr : ∀ u ∈ O, Pr ord N u ∧ ∀ i, 1 ≤ i → i < N → Sp ord i (u.1.take i) (u.1.getD i [])
  sat : ∀ (X : OFld) (a : Var → X.K), (∃ u ∈ O, Sat u a) ↔
    (∀ p ∈ P, aeval a (val p) = 0) ∧ (∀ g ∈ G1, 0 ≤ aeval a (val g)) ∧ (∀ g ∈ G2, 0 < aeval a (val g)) ∧ ∀ h ∈ H, aeval a (val h) ≠ 0

theorem sas_sound (hn : ord.Nodup) {N : ℕ} (n : ℕ) {P G1 G2 H : List (PV Mono ℤ)} (h1 : ∀ g ∈ G1, InLo ord N g) (h2 : ∀ g ∈ G2, InLo ord N g) (hH : ∀ h ∈ H, InLo ord N h)
    {O : List (List (PV Mono ℤ))} (hO : Chs ord N O) (hP : ∀ (X : Fld) (a : Var → X.K), (∃ C ∈ O, Zr C a) ↔ ∀ p ∈ P, aeval a (val p) = 0) :
    Snd (bind2 (nonzeroOn ord true n H O) fun O => bind2 (nonzeroOn ord true n G2 O) fun O =>
      bind2 (splitNonneg ord true n G1 (O.map fun T => (T, G2))) fun U =>
        collect1 (fun u => bind2 (rcToSqf ord true n u.1) fun Ts => ok2 (Ts.map fun t => (t, u.2))) U) (SasOut ord N P G1 G2 H) := by
  refine (nonzeroOn_sound hn n H O hH hO).bind fun O1 hO1 => (nonzeroOn_sound hn n G2 O1 h2 hO1.1).bind fun O2 hO2 => ?_
  have hz2 : ∀ (X : Fld) (a : Var → X.K), (∃ C ∈ O2, Zr C a) ↔ (∀ p ∈ P, aeval a (val p) = 0) ∧ (∀ h ∈ H, aeval a (val h) ≠ 0) ∧ ∀ g ∈ G2, aeval a (val g) ≠ 0 := fun X a => by
    rw [hO2.2, hO1.2, hP, and_assoc]
  refine (splitNonneg_sound hn n G1 (O2.map fun T => (T, G2)) h1 fun u hu => ?_).bind fun U hU => ?_
  · obtain ⟨T, hT, rfl⟩ := List.mem_map.1 hu
    exact ⟨hO2.1 T hT, fun p hp X a ha => ((hz2 X a).1 ⟨T, hT, ha⟩).2.2 p hp⟩
  · have hz3 : ∀ (X : OFld) (a : Var → X.K), (∃ u ∈ O2.map fun T => (T, G2), Sat u a) ↔ (∀ p ∈ P, aeval a (val p) = 0) ∧ (∀ h ∈ H, aeval a (val h) ≠ 0) ∧ ∀ g ∈ G2, 0 < aeval a (val g) := by
      intro X a
      have e := hz2 X.toFld a
      constructor
      · rintro ⟨u, hu, hs⟩
        obtain ⟨T, hT, rfl⟩ := List.mem_map.1 hu
        have := e.1 ⟨T, hT, hs.1⟩
        exact ⟨this.1, this.2.1, hs.2⟩
      · rintro ⟨k1, k2, k3⟩
        obtain ⟨T, hT, hz⟩ := e.2 ⟨k1, k2, fun g hg => (k3 g hg).ne'⟩
        exact ⟨(T, G2), List.mem_map.2 ⟨T, hT, rfl⟩, hz, k3⟩
    refine (Snd.collect (Q := fun u s => (∀ v ∈ s, Pr ord N v ∧ ∀ i, 1 ≤ i → i < N → Sp ord i (v.1.take i) (v.1.getD i [])) ∧
      ∀ (X : OFld) (a : Var → X.K), (∃ v ∈ s, Sat v a) ↔ Sat u a) fun u hu => ?_).mono fun R hR => ⟨fun v hv => ?_, fun X a => ?_⟩
    · obtain ⟨⟨t1, t2⟩, t3⟩ := hU.1 u hu
      refine (rcToSqf_sound hn n u.1 t1).bind fun Ts hTs => Snd.ok ⟨fun v hv => ?_, fun X a => ?_⟩
      · obtain ⟨c, hc, rfl⟩ := List.mem_map.1 hv
        obtain ⟨k1, k2, k3⟩ := hTs.rc c hc
        rw [t2] at k2 k3
        exact ⟨⟨⟨k1, k2⟩, fun p hp X a ha => t3 p hp X a ((hTs.zr X a).1 ⟨c, hc, ha⟩)⟩, k3⟩
      · constructor
        · rintro ⟨v, hv, hs⟩
          obtain ⟨c, hc, rfl⟩ := List.mem_map.1 hv
          exact ⟨(hTs.zr X.toFld a).1 ⟨c, hc, hs.1⟩, hs.2⟩
        · rintro hs
          obtain ⟨c, hc, hz⟩ := (hTs.zr X.toFld a).2 hs.1
          exact ⟨(c, u.2), List.mem_map.2 ⟨c, hc, rfl⟩, hz, hs.2⟩
    · obtain ⟨u, -, s, hs, hvs⟩ := hR.2 v hv
      exact hs.1 v hvs
    · have e1 : (∃ u ∈ R, Sat u a) ↔ ∃ u ∈ U, Sat u a := by
        constructor
        · rintro ⟨v, hv, hs⟩
          obtain ⟨u, hu, s, hq, hvs⟩ := hR.2 v hv
          exact ⟨u, hu, (hq.2 X a).1 ⟨v, hvs, hs⟩⟩
        · rintro ⟨u, hu, hs⟩
          obtain ⟨s, hq, hsub⟩ := hR.1 u hu
          obtain ⟨v, hv, hs'⟩ := (hq.2 X a).2 hs
          exact ⟨v, hsub v hv, hs'⟩
      rw [e1, hU.2 X a, hz3 X a]
      tauto

theorem liftO_some {α : Type} {o : O2 α} {s rest : List ℕ} {b : α} (h : liftO o s = some (some b, rest)) : o = ok2 b := by
  rcases o with - | - | a
  · simp [liftO, Run.ret] at h
  · simp [liftO, Run.fail] at h
  · simp only [liftO, Run.ret, Option.some.injEq, Prod.mk.injEq] at h
    rw [h.1]; rfl

theorem grdForZDSAS_sound (hn : ord.Nodup) {sq : PV Mono ℤ → Run (PV Mono ℤ)} (hsq : SqSpec (varCustom ord) sq) {N n : ℕ} {P G1 G2 H : List (PV Mono ℤ)} {s rest : List ℕ}
    {O : List (List (PV Mono ℤ) × List (PV Mono ℤ))} (h : grdForZDSAS ord true sq n P G1 G2 H s = some (some O, rest)) (hP : Good (varCustom ord) P) (h0 : P ≠ [])
    (h1 : ∀ g ∈ G1, InLo ord N g) (h2 : ∀ g ∈ G2, InLo ord N g) (hH : ∀ h ∈ H, InLo ord N h)
    (hL : ∀ L s', wuCharset (varCustom ord) true sq n P s = some (some L, s') → ∀ T ∈ L, TC ord T ∧ T.length = N) : SasOut ord N P G1 G2 H O := by
  obtain ⟨C, s', e1, e2⟩ := bindR_some h
  have hw := grdForZD_sound hn hsq e1 hP h0 fun L s' e T hT => (hL L s' e T hT).1
  exact sas_sound hn n h1 h2 hH (fun c hc => ⟨hw.1 c hc, grdForZD_len hn hsq e1 hL c hc⟩) hw.2 O (liftO_some e2)

theorem nonzeroOn_code (ord : List Var) (chk : Bool) (n : ℕ) : ∀ H O, Le2 (nonzeroOn ord chk n H O) (nonzeroOn ord false n H O) := by
  intro H
  induction H with
  | nil => intro O; exact Le2.refl _
  | cons h H ih =>
    intro O
    exact (Le2.collect1 (fun T => (iterResB_code _ _).bind fun r => Le2.ite ((wrsd_code _ _ _ _ _).bind fun W => Le2.refl _) (Le2.refl _)) O).bind fun O' => ih O'

theorem splitNonneg_code (ord : List Var) (chk : Bool) (n : ℕ) : ∀ G U, Le2 (splitNonneg ord chk n G U) (splitNonneg ord false n G U) := by
  intro G
  induction G with
  | nil => intro O; exact Le2.refl _
  | cons h H ih =>
    intro O
    exact (Le2.collect1 (fun T => (iterResB_code _ _).bind fun r => Le2.ite ((wrsd_code _ _ _ _ _).bind fun W => Le2.refl _) (Le2.refl _)) O).bind fun O' => ih O'

theorem grdForZDSAS_sub (ord : List Var) {chk : Bool} {sq sq' : PV Mono ℤ → Run (PV Mono ℤ)} (h : ∀ F, Run.Sub (sq F) (sq' F)) (n : ℕ) (P G1 G2 H : List (PV Mono ℤ)) :
    SubS (grdForZDSAS ord chk sq n P G1 G2 H) (grdForZDSAS ord false sq' n P G1 G2 H) :=
  SubS.bindR (grdForZD_sub ord h n P) fun _ => SubS.liftO2 ((nonzeroOn_code ord chk n _ _).bind fun _ => (nonzeroOn_code ord chk n _ _).bind fun _ => (splitNonneg_code ord chk n _ _).bind fun _ =>
    Le2.collect1 (fun _ => (rcToSqf_code ord chk n _).bind fun _ => Le2.refl _) _)

end Charset
end CLPoly
