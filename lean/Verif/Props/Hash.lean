import Verif.Poly.Hash
import Verif.Props.Polynomials
import Verif.Props.NumQQ
import Verif.Props.NumZp

/-! # C103: equality and hashing of polynomial objects agree with equality of polynomials -/

namespace CLPoly
open Mono MvPolynomial

/-- coefficients whose representation is determined by their value -/
structure Rep {T R : Type} (good : T → Prop) (d : T → R) (beq : T → T → Bool) : Prop where
  eq : ∀ a b, good a → good b → (beq a b = true ↔ d a = d b)
  ext : ∀ a b, good a → good b → d a = d b → a = b

theorem polyBeq_iff {T R : Type} {good : T → Prop} {d : T → R} {beq : T → T → Bool} (h : Rep good d beq) (f g : PV Mono T) (hf : ∀ t ∈ f, good t.2) (hg : ∀ t ∈ g, good t.2) : polyBeq beq f g = true ↔ f = g := by
  have go : ∀ f g : PV Mono T, (∀ t ∈ f, good t.2) → (∀ t ∈ g, good t.2) → f.length = g.length → (polyBeqGo beq f g = true ↔ f = g) := by
    intro f
    induction f with
    | nil =>
      intro g _ _ hl
      cases g with
      | nil => simp [polyBeqGo]
      | cons => simp at hl
    | cons t f ih =>
      intro g hf hg hl
      cases g with
      | nil => simp at hl
      | cons s g =>
        have hs := hg s List.mem_cons_self
        have ht := hf t List.mem_cons_self
        have ih := ih g (fun u hu => hf u (List.mem_cons_of_mem _ hu)) (fun u hu => hg u (List.mem_cons_of_mem _ hu)) (by simpa using hl)
        rw [polyBeqGo]
        by_cases hts : t = s
        · subst hts
          rw [(beq_iff _ _).2 rfl, (h.eq _ _ ht ht).2 rfl]
          simpa using ih
        · have : ¬ (Mono.beq t.1 s.1 = true ∧ beq t.2 s.2 = true) := fun ⟨h1, h2⟩ => hts (Prod.ext ((beq_iff _ _).1 h1) (h.ext _ _ ht hs ((h.eq _ _ ht hs).1 h2)))
          rw [if_pos (by revert this; cases Mono.beq t.1 s.1 <;> cases beq t.2 s.2 <;> simp)]
          simp [hts]
  unfold polyBeq
  by_cases hl : g.length = f.length
  · rw [if_neg (by simpa using hl), go g f hg hf hl]; exact eq_comm
  · rw [if_pos (by simpa using hl)]
    simp only [Bool.false_eq_true, false_iff]
    rintro rfl; exact hl rfl

theorem map_rep {T R : Type} {good : T → Prop} {d : T → R} {beq : T → T → Bool} (h : Rep good d beq) : ∀ f g : PV Mono T, (∀ t ∈ f, good t.2) → (∀ t ∈ g, good t.2) →
    f.map (fun t => (t.1, d t.2)) = g.map (fun t => (t.1, d t.2)) → f = g := by
  intro f
  induction f with
  | nil => intro g _ _ e; cases g with | nil => rfl | cons => simp at e
  | cons t f ih =>
    intro g hf hg e
    cases g with
    | nil => simp at e
    | cons s g =>
      simp only [List.map_cons, List.cons.injEq, Prod.mk.injEq] at e
      rw [Prod.ext e.1.1 (h.ext _ _ (hf t List.mem_cons_self) (hg s List.mem_cons_self) e.1.2), ih g (fun u hu => hf u (List.mem_cons_of_mem _ hu)) (fun u hu => hg u (List.mem_cons_of_mem _ hu)) e.2]

variable {vc : Var → Var → Bool} {mc : Mono → Mono → Bool}

/-- two polynomial objects whose coefficients are in normal form: `operator==` says exactly whether they are the same polynomial, and then they have the same hash, whatever the hash functions are -/
theorem C103_rep {T R : Type} [DecidableEq R] [CommRing R] {good : T → Prop} {d : T → R} {beq : T → T → Bool} (h : Rep good d beq) (M : MonoOrd vc mc) (f g : PV Mono T) (hf : ∀ t ∈ f, good t.2) (hg : ∀ t ∈ g, good t.2)
    (hf' : PolyOK vc mc (f.map fun t => (t.1, d t.2))) (hg' : PolyOK vc mc (g.map fun t => (t.1, d t.2))) :
    (polyBeq beq f g = true ↔ val (f.map fun t => (t.1, d t.2)) = val (g.map fun t => (t.1, d t.2))) ∧
    ∀ (mix : ℕ → ℕ → ℕ) (hm : Mono → ℕ) (hc : T → ℕ), val (f.map fun t => (t.1, d t.2)) = val (g.map fun t => (t.1, d t.2)) → polyHash mix hm hc f = polyHash mix hm hc g := by
  have key : val (f.map fun t => (t.1, d t.2)) = val (g.map fun t => (t.1, d t.2)) → f = g := fun e => map_rep h f g hf hg (hf'.ext M hg' e)
  exact ⟨(polyBeq_iff h f g hf hg).trans ⟨fun e => by rw [e], key⟩, fun mix hm hc e => by rw [key e]⟩

theorem rep_ZZ : Rep ZZ.Canon ZZ.val ZZ.beq := ⟨fun a b ha hb => (C02_ZZ_compare a b ha hb).1, fun _ _ ha hb e => ZZ.canon_ext ha hb e⟩

theorem rep_QQ : Rep QQ.Canon QQ.toRat QQ.beq := ⟨fun a b ha hb => (C06_QQ_compare a b ha hb).1, fun a b ha hb e => by
  have h := (C06_QQ_compare a b ha hb).2.2.1 (fun z => Encodable.encode z) (fun z => Encodable.encode z) Nat.pair e
  simp only [QQ.hash, Nat.pair_eq_pair, true_and] at h
  have hz : ∀ z : ZZ, ZZ.hash (fun z => Encodable.encode z) (fun z => Encodable.encode z) z = Encodable.encode z.val := fun z => by cases z <;> rfl
  rw [hz, hz, hz, hz] at h
  cases a; cases b
  simp only [QQ.mk.injEq]
  exact ⟨ZZ.canon_ext ha.1 hb.1 (Encodable.encode_injective h.1), ZZ.canon_ext ha.2.1 hb.2.1 (Encodable.encode_injective h.2)⟩⟩

theorem rep_Zp (p : ℕ) : Rep (fun z : Zp => z.WF ∧ z.p = p) (fun z => (z.i : ZMod p)) Zp.beq := by
  have key : ∀ a b : Zp, a.WF ∧ a.p = p → b.WF ∧ b.p = p → ((a.i : ZMod p) = (b.i : ZMod p)) → a = b := by
    rintro ⟨i, q, n, m⟩ ⟨i', q', n', m'⟩ ⟨⟨_, _, h3, h4, h5⟩, hq⟩ ⟨⟨_, _, h3', h4', h5'⟩, hq'⟩ e
    dsimp only at *
    subst hq hq'
    rw [ZMod.natCast_eq_natCast_iff', Nat.mod_eq_of_lt h3, Nat.mod_eq_of_lt h3'] at e
    rw [e, h4, h4', h5, h5']
  exact ⟨fun a b ha hb => C07_Zp_beq p a b _ _ ⟨ha.1, ha.2, rfl⟩ ⟨hb.1, hb.2, rfl⟩, key⟩

/-- C103 over ℤ, ℚ and ℤ/p: for polynomial objects with the same order whose coefficients are in normal form (as C02, C06, C07 and C15–C23 show for all results), `==` holds exactly for equal polynomials, and equal polynomials
have equal hashes, for any hash functions of words and any mixing function -/
theorem C103_ZZ (M : MonoOrd vc mc) (f g : PV Mono ZZ) (hf : ∀ t ∈ f, t.2.Canon) (hg : ∀ t ∈ g, t.2.Canon) (hf' : PolyOK vc mc (f.map fun t => (t.1, t.2.val))) (hg' : PolyOK vc mc (g.map fun t => (t.1, t.2.val))) :
    (polyBeq ZZ.beq f g = true ↔ val (f.map fun t => (t.1, t.2.val)) = val (g.map fun t => (t.1, t.2.val))) ∧
    ∀ (mix : ℕ → ℕ → ℕ) (hv : Var → ℕ) (he hs hb : ℤ → ℕ), val (f.map fun t => (t.1, t.2.val)) = val (g.map fun t => (t.1, t.2.val)) →
      polyHash mix (Mono.hash mix hv he) (ZZ.hash hs hb) f = polyHash mix (Mono.hash mix hv he) (ZZ.hash hs hb) g :=
  ⟨(C103_rep rep_ZZ M f g hf hg hf' hg').1, fun mix _ _ _ _ e => (C103_rep rep_ZZ M f g hf hg hf' hg').2 mix _ _ e⟩

theorem C103_QQ (M : MonoOrd vc mc) (f g : PV Mono QQ) (hf : ∀ t ∈ f, t.2.Canon) (hg : ∀ t ∈ g, t.2.Canon) (hf' : PolyOK vc mc (f.map fun t => (t.1, t.2.toRat))) (hg' : PolyOK vc mc (g.map fun t => (t.1, t.2.toRat))) :
    (polyBeq QQ.beq f g = true ↔ val (f.map fun t => (t.1, t.2.toRat)) = val (g.map fun t => (t.1, t.2.toRat))) ∧
    ∀ (mix : ℕ → ℕ → ℕ) (hv : Var → ℕ) (he hs hb : ℤ → ℕ), val (f.map fun t => (t.1, t.2.toRat)) = val (g.map fun t => (t.1, t.2.toRat)) →
      polyHash mix (Mono.hash mix hv he) (QQ.hash hs hb mix) f = polyHash mix (Mono.hash mix hv he) (QQ.hash hs hb mix) g :=
  ⟨(C103_rep rep_QQ M f g hf hg hf' hg').1, fun mix _ _ _ _ e => (C103_rep rep_QQ M f g hf hg hf' hg').2 mix _ _ e⟩

theorem C103_Zp (p : ℕ) (M : MonoOrd vc mc) (f g : PV Mono Zp) (hf : ∀ t ∈ f, t.2.WF ∧ t.2.p = p) (hg : ∀ t ∈ g, t.2.WF ∧ t.2.p = p)
    (hf' : PolyOK vc mc (f.map fun t => (t.1, (t.2.i : ZMod p)))) (hg' : PolyOK vc mc (g.map fun t => (t.1, (t.2.i : ZMod p)))) :
    (polyBeq Zp.beq f g = true ↔ val (f.map fun t => (t.1, (t.2.i : ZMod p))) = val (g.map fun t => (t.1, (t.2.i : ZMod p)))) ∧
    ∀ (mix : ℕ → ℕ → ℕ) (hv : Var → ℕ) (he : ℤ → ℕ) (hw : ℕ → ℕ), val (f.map fun t => (t.1, (t.2.i : ZMod p))) = val (g.map fun t => (t.1, (t.2.i : ZMod p))) →
      polyHash mix (Mono.hash mix hv he) (Zp.hash mix hw) f = polyHash mix (Mono.hash mix hv he) (Zp.hash mix hw) g :=
  ⟨(C103_rep (rep_Zp p) M f g hf hg hf' hg').1, fun mix _ _ _ e => (C103_rep (rep_Zp p) M f g hf hg hf' hg').2 mix _ _ e⟩

/-- monomials with the same exponents have the same hash -/
theorem C103_mono (ho : VarOrd vc) (a b : Mono) (ha : Valid vc a) (hb : Valid vc b) (mix : ℕ → ℕ → ℕ) (hv : Var → ℕ) (he : ℤ → ℕ) :
    (Mono.beq a b = true ↔ expo a = expo b) ∧ (expo a = expo b → Mono.hash mix hv he a = Mono.hash mix hv he b) := by
  have key : expo a = expo b → a = b := fun e => expo_inj ho ha hb e
  exact ⟨(beq_iff a b).trans ⟨fun e => by rw [e], key⟩, fun e => by rw [key e]⟩

/-- the normal form is needed: `5` stored inline and `5` stored as a GMP number are `==`, and can have different hashes -/
theorem C103_canonical_needed : ∃ (mix : ℕ → ℕ → ℕ) (hs hb : ℤ → ℕ), polyBeq ZZ.beq [(Mono.one, ZZ.small 5)] [(Mono.one, ZZ.big 5)] = true ∧
    polyHash mix (Mono.hash mix id Int.toNat) (ZZ.hash hs hb) [(Mono.one, ZZ.small 5)] ≠ polyHash mix (Mono.hash mix id Int.toNat) (ZZ.hash hs hb) [(Mono.one, ZZ.big 5)] :=
  ⟨fun a b => a + b, fun _ => 0, fun _ => 1, by decide, by decide⟩

/-- one order is needed: `x + y²` sorted lexicographically and sorted by degree is the same polynomial; with assertions compiled out `==` says no, and the hashes can differ -/
theorem C103_one_order_needed : ∃ (mix : ℕ → ℕ → ℕ), PolyOK varLess (lexGt varLess) [(exXY 1 0, (1 : ℤ)), (exXY 0 2, 1)] ∧ PolyOK varLess (grlexGt varLess) [(exXY 0 2, (1 : ℤ)), (exXY 1 0, 1)] ∧
    val [(exXY 1 0, (1 : ℤ)), (exXY 0 2, 1)] = val [(exXY 0 2, (1 : ℤ)), (exXY 1 0, 1)] ∧ polyBeq ZZ.beq [(exXY 1 0, ZZ.small 1), (exXY 0 2, ZZ.small 1)] [(exXY 0 2, ZZ.small 1), (exXY 1 0, ZZ.small 1)] = false ∧
    polyHash mix (Mono.hash mix id Int.toNat) (ZZ.hash Int.toNat Int.toNat) [(exXY 1 0, ZZ.small 1), (exXY 0 2, ZZ.small 1)] ≠ polyHash mix (Mono.hash mix id Int.toNat) (ZZ.hash Int.toNat Int.toNat) [(exXY 0 2, ZZ.small 1), (exXY 1 0, ZZ.small 1)] :=
  ⟨fun a b => 3 * a + b, by decide, by decide, val_perm (List.Perm.swap _ _ _), by decide, by decide⟩

-- two objects that meet the hypotheses of `C103_ZZ`: `3·x·y² − 2⁶⁴`, a small and a large coefficient
example : (∀ t ∈ ([(exXY 1 2, ZZ.small 3), (Mono.one, ZZ.big (-2 ^ 64))] : PV Mono ZZ), t.2.Canon) ∧
    PolyOK varLess (lexGt varLess) (([(exXY 1 2, ZZ.small 3), (Mono.one, ZZ.big (-2 ^ 64))] : PV Mono ZZ).map fun t => (t.1, t.2.val)) := by decide +kernel

-- and of `C103_Zp`: `4·x·y² + 1` modulo 7, made by the constructors
example : (∀ t ∈ ([(exXY 1 2, Zp.ofU64 4 7), (Mono.one, Zp.ofU64 8 7)] : PV Mono Zp), t.2.WF ∧ t.2.p = 7) ∧
    PolyOK varLess (lexGt varLess) (([(exXY 1 2, Zp.ofU64 4 7), (Mono.one, Zp.ofU64 8 7)] : PV Mono Zp).map fun t => (t.1, (t.2.i : ZMod 7))) := by decide +kernel

-- and of `C103_QQ`: `−2/3·x·y²`
example : (∀ t ∈ ([(exXY 1 2, ⟨ZZ.small (-2), ZZ.small 3⟩)] : PV Mono QQ), t.2.Canon) ∧ PolyOK varLess (lexGt varLess) (([(exXY 1 2, ⟨ZZ.small (-2), ZZ.small 3⟩)] : PV Mono QQ).map fun t => (t.1, t.2.toRat)) := by
  refine ⟨?_, ?_⟩
  · simp only [List.mem_singleton, forall_eq, QQ.Canon]; decide +kernel
  · rw [polyOK_iff]
    refine ⟨by decide, ?_⟩
    refine ⟨by simp, fun t ht => ?_⟩
    simp only [List.map_cons, List.map_nil, List.mem_singleton] at ht
    subst ht
    norm_num [QQ.toRat, ZZ.val]

end CLPoly
