import Verif.Poly.PackedMul
import Mathlib.Data.Finset.Card
import Mathlib.Data.Finset.Union

/-! # Polynomial multiplication: the variable list and the whole `operator*` -/

namespace CLPoly
open Mono
variable {vc : Var → Var → Bool} {R : Type*}

/-- the list of variables is strictly sorted -/
abbrev SortedVars (vc : Var → Var → Bool) (l : List Var) : Prop := l.Pairwise fun a b => vc a b = true

theorem mem_mergeVars (ho : VarOrd vc) (l m : List Var) (v : Var) : v ∈ mergeVars vc l m ↔ v ∈ l ∨ v ∈ m := by
  fun_induction mergeVars vc l m with
  | case1 l => simp
  | case2 m => simp
  | case3 a l b m h ih => simp only [List.mem_cons] at ih ⊢; rw [ih]; tauto
  | case4 a l b m h h' ih => simp only [List.mem_cons] at ih ⊢; rw [ih]; tauto
  | case5 a l b m h h' ih =>
    have : a = b := by
      by_contra hne
      rcases ho.total a b trivial trivial hne with h1 | h1
      · exact h h1
      · exact h' h1
    subst this
    simp only [List.mem_cons, ih]; tauto

theorem mergeVars_sorted (ho : VarOrd vc) (l m : List Var) (hl : SortedVars vc l) (hm : SortedVars vc m) :
    SortedVars vc (mergeVars vc l m) := by
  fun_induction mergeVars vc l m with
  | case1 l => exact hl
  | case2 m => exact hm
  | case3 a l b m h ih =>
    have hl' := List.pairwise_cons.1 hl
    refine List.pairwise_cons.2 ⟨fun x hx => ?_, ih hl'.2 hm⟩
    rcases (mem_mergeVars ho _ _ x).1 hx with h1 | h1
    · exact hl'.1 x h1
    · rcases List.mem_cons.1 h1 with rfl | h1
      · exact h
      · exact ho.trans _ _ _ trivial trivial trivial h ((List.pairwise_cons.1 hm).1 x h1)
  | case4 a l b m h h' ih =>
    have hm' := List.pairwise_cons.1 hm
    refine List.pairwise_cons.2 ⟨fun x hx => ?_, ih hl hm'.2⟩
    rcases (mem_mergeVars ho _ _ x).1 hx with h1 | h1
    · rcases List.mem_cons.1 h1 with rfl | h1
      · exact h'
      · exact ho.trans _ _ _ trivial trivial trivial h' ((List.pairwise_cons.1 hl).1 x h1)
    · exact hm'.1 x h1
  | case5 a l b m h h' ih =>
    have hl' := List.pairwise_cons.1 hl
    have hm' := List.pairwise_cons.1 hm
    have : a = b := by
      by_contra hne
      rcases ho.total a b trivial trivial hne with h1 | h1
      · exact h h1
      · exact h' h1
    subst this
    refine List.pairwise_cons.2 ⟨fun x hx => ?_, ih hl'.2 hm'.2⟩
    rcases (mem_mergeVars ho _ _ x).1 hx with h1 | h1
    · exact hl'.1 x h1
    · exact hm'.1 x h1

theorem mem_pvVars (ho : VarOrd vc) (p : PV Mono R) (l : List Var) (v : Var) :
    v ∈ pvVars vc p l ↔ v ∈ l ∨ v ∈ polyVars p := by
  unfold pvVars
  induction p generalizing l with
  | nil => simp [polyVars]
  | cons t p ih =>
    rw [List.foldl_cons, ih, mem_mergeVars ho]
    simp only [polyVars, List.flatMap_cons, List.toFinset_append, Finset.mem_union, List.mem_toFinset]
    tauto

theorem pvVars_sorted (ho : VarOrd vc) (p : PV Mono R) (hp : ∀ t ∈ p, Valid vc t.1) (l : List Var) (hl : SortedVars vc l) :
    SortedVars vc (pvVars vc p l) := by
  unfold pvVars
  induction p generalizing l with
  | nil => exact hl
  | cons t p ih =>
    rw [List.foldl_cons]
    refine ih (fun x hx => hp x (List.mem_cons_of_mem _ hx)) _ (mergeVars_sorted ho _ _ hl ?_)
    rw [SortedVars, List.pairwise_map]
    exact (hp t (by simp)).sorted

theorem SortedVars.nodup (ho : VarOrd vc) {l : List Var} (h : SortedVars vc l) : l.Nodup :=
  h.imp fun {a b} hab e => by subst e; rw [ho.irrefl a trivial] at hab; exact absurd hab (by simp)

/-- the common variable list of two operands -/
theorem commonVars (ho : VarOrd vc) {p q : PV Mono R} (hp : ∀ t ∈ p, Valid vc t.1) (hq : ∀ t ∈ q, Valid vc t.1) :
    SortedVars vc (pvVars vc q (pvVars vc p [])) ∧
    (∀ v, v ∈ pvVars vc q (pvVars vc p []) ↔ v ∈ polyVars p ∪ polyVars q) ∧
    (pvVars vc q (pvVars vc p [])).length = (polyVars p ∪ polyVars q).card := by
  have hs := pvVars_sorted ho q hq _ (pvVars_sorted ho p hp [] List.Pairwise.nil)
  have hm : ∀ v, v ∈ pvVars vc q (pvVars vc p []) ↔ v ∈ polyVars p ∪ polyVars q := by
    intro v
    rw [mem_pvVars ho, mem_pvVars ho, Finset.mem_union]; simp
  refine ⟨hs, hm, ?_⟩
  rw [← List.toFinset_card_of_nodup (hs.nodup ho)]
  congr 1
  ext v
  rw [List.mem_toFinset, hm]

theorem mem_polyVars {p : PV Mono R} {t : Mono × R} (ht : t ∈ p) {x : Var × Int} (hx : x ∈ t.1.data) : x.1 ∈ polyVars p :=
  List.mem_toFinset.2 (List.mem_flatMap.2 ⟨t, ht, List.mem_map.2 ⟨x, hx, rfl⟩⟩)

theorem mul_sub (ho : VarOrd vc) {a b : Mono} (ha : Valid vc a) (hb : Valid vc b) {vars : List Var}
    (h1 : ∀ x ∈ a.data, x.1 ∈ vars) (h2 : ∀ x ∈ b.data, x.1 ∈ vars) : ∀ x ∈ (mul vc a b).data, x.1 ∈ vars := by
  have := (mul_validIn (V := vars.toFinset) ho ⟨ha, fun x hx => List.mem_toFinset.2 (h1 x hx)⟩
    ⟨hb, fun x hx => List.mem_toFinset.2 (h2 x hx)⟩).2
  exact fun x hx => List.mem_toFinset.1 (this x hx)

theorem noNeg_of_valid {p : PV Mono R} (hp : ∀ t ∈ p, Valid vc t.1) : noNeg p = true := by
  unfold noNeg
  rw [List.all_eq_true]
  intro t ht
  rw [List.all_eq_true]
  intro x hx
  have := (hp t ht).pos x hx
  simp only [Bool.not_eq_true', decide_eq_false_iff_not]
  omega

variable [CommRing R] [DecidableEq R]

/-- the default coefficient is zero -/
local instance mulSpecDefault : Inhabited R := ⟨0⟩

/-- what a packed product needs from the order's codec -/
structure CodeOK (vc : Var → Var → Bool) (C : OrderCode R) (B : List Var → Mono → Prop) : Prop where
  ord : MonoOrd vc C.mc
  codec : ∀ vars, SortedVars vc vars → Codec vc C.mc (C.pack vars) (C.unpack vars) (B vars)
  can : ∀ p q, (∀ t ∈ p, Valid vc t.1) → (∀ t ∈ q, Valid vc t.1) → C.can false p q = some (pvVars vc q (pvVars vc p []))

theorem codeGr_ok (ho : VarOrd vc) : CodeOK vc (codeGr R vc) (FitsGr vc) where
  ord := grlex_ord ho
  codec _ hv := codecGr ho hv
  can p q hp hq := by simp [codeGr, canPackGr, noNeg_of_valid hp, noNeg_of_valid hq]

theorem codeLex_ok (ho : VarOrd vc) : CodeOK vc (codeLex R vc) (FitsLex vc) where
  ord := lex_ord ho
  codec _ hv := codecLex ho hv
  can p q hp hq := by simp [codeLex, canPackLex, noNeg_of_valid hp, noNeg_of_valid hq]

/-- every term and every product of terms fits into the packed word -/
def MulFits (vc : Var → Var → Bool) (B : List Var → Mono → Prop) (p q : PV Mono R) : Prop :=
  ∀ vars : List Var, (∀ v, v ∈ vars ↔ v ∈ polyVars p ∪ polyVars q) → vars.length = (polyVars p ∪ polyVars q).card →
    (∀ x ∈ p, B vars x.1) ∧ (∀ y ∈ q, B vars y.1) ∧ ∀ x ∈ p, ∀ y ∈ q, B vars (mul vc x.1 y.1)

theorem MulFits.swap (ho : VarOrd vc) {B : List Var → Mono → Prop} {p q : PV Mono R} (hp : ∀ t ∈ p, Valid vc t.1)
    (hq : ∀ t ∈ q, Valid vc t.1) (h : MulFits vc B p q) : MulFits vc B q p := by
  intro vars h1 h2
  rw [Finset.union_comm] at h2
  obtain ⟨a, b, c⟩ := h vars (by rwa [Finset.union_comm]) h2
  exact ⟨b, a, fun x hx y hy => by rw [mul_comm' ho (hq x hx) (hp y hy)]; exact c y hy x hx⟩

theorem polyMulLe_spec [NoZeroDivisors R] {C : OrderCode R} {B : List Var → Mono → Prop} (H : CodeOK vc C B) {p q : PV Mono R}
    (hp : PolyOK vc C.mc p) (hq : PolyOK vc C.mc q) (hle : p.length ≤ q.length)
    (hfit : p.length ≤ 1 ∨ MulFits vc B p q) :
    ∃ out, polyMulLe vc C p q = some out ∧ PolyOK vc C.mc out ∧ val out = val p * val q := by
  have generic : ∀ p' : PV Mono R, p' = p → p.length ≤ 1 → ∃ out, pvMulLe (mul vc) C.mc p' q = some out ∧
      PolyOK vc C.mc out ∧ val out = val p * val q := by
    intro p' e hl
    subst e
    have MS := monoSys (R := R) H.ord (polyVars p' ∪ polyVars q)
    obtain ⟨out, o1, o2, o3, o4⟩ := CLPoly.pvMulLe_spec MS.lawful
      (MS.mulCompat (hp.keysIn Finset.subset_union_left) (hq.keysIn Finset.subset_union_right)) hp.canon hq.canon hle
    exact ⟨out, o1, .of_keysIn o4 o3, o2⟩
  match p, hp, hle, hfit, generic with
  | [], _, _, _, g => exact g [] rfl (by simp)
  | [t], _, _, _, g => exact g [t] rfl (by simp)
  | t :: t' :: p, hp, hle, hfit, _ =>
    obtain ⟨h1, h2, h3⟩ := commonVars H.ord.vo hp.monos hq.monos
    obtain ⟨f1, f2, f3⟩ := (hfit.resolve_left (by simp)) _ h2 h3
    simp only [polyMulLe, H.can _ _ hp.monos hq.monos]
    refine (H.codec _ h1).packedMul_spec H.ord f1 f2 hp.canon hq.canon f3 (by simp) ?_
    rintro rfl
    simp at hle

/-- **multiplication**, under the packing capacity condition -/
theorem polyMul_spec [NoZeroDivisors R] {C : OrderCode R} {B : List Var → Mono → Prop} (H : CodeOK vc C B) {p q : PV Mono R}
    (hp : PolyOK vc C.mc p) (hq : PolyOK vc C.mc q)
    (hfit : p.length ≤ 1 ∨ q.length ≤ 1 ∨ MulFits vc B p q) :
    ∃ out, polyMul vc C p q = some out ∧ PolyOK vc C.mc out ∧ val out = val p * val q := by
  unfold polyMul
  split
  · rw [mul_comm]
    refine polyMulLe_spec H hq hp (by omega) ?_
    rcases hfit with h | h | h
    · left; omega
    · left; omega
    · exact .inr (h.swap H.ord.vo hp.monos hq.monos)
  · refine polyMulLe_spec H hp hq (by omega) ?_
    rcases hfit with h | h | h
    · left; omega
    · left; omega
    · exact .inr h

/-- capacity of the grlex packing: total degrees below this bound fit -/
def capGr (n : Nat) : Int := if n ≤ 1 then 2 ^ 63 else 2 ^ (64 / (n + 1))
/-- capacity of the lex packing: exponents below this bound fit -/
def capLex (n : Nat) : Int := if n ≤ 1 then 2 ^ 63 else 2 ^ (64 / n)

theorem capGr_pos (n : Nat) : 0 < capGr n := by unfold capGr; split <;> positivity
theorem capLex_pos (n : Nat) : 0 < capLex n := by unfold capLex; split <;> positivity

theorem mul_deg {a b : Mono} : (mul vc a b).deg = a.deg + b.deg := rfl

theorem mulFits_gr (ho : VarOrd vc) {p q : PV Mono R} (hp : ∀ t ∈ p, Valid vc t.1) (hq : ∀ t ∈ q, Valid vc t.1) (p0 : p ≠ []) (q0 : q ≠ [])
    (h : ∀ x ∈ p, ∀ y ∈ q, x.1.deg + y.1.deg < capGr (polyVars p ∪ polyVars q).card) : MulFits vc (FitsGr vc) p q := by
  intro vars h1 h2
  obtain ⟨x0, hx0⟩ := List.exists_mem_of_ne_nil _ p0
  obtain ⟨y0, hy0⟩ := List.exists_mem_of_ne_nil _ q0
  have sp : ∀ t ∈ p, ∀ x ∈ t.1.data, x.1 ∈ vars := fun t ht x hx =>
    (h1 _).2 (Finset.mem_union_left _ (mem_polyVars ht hx))
  have sq : ∀ t ∈ q, ∀ x ∈ t.1.data, x.1 ∈ vars := fun t ht x hx =>
    (h1 _).2 (Finset.mem_union_right _ (mem_polyVars ht hx))
  rw [← h2] at h
  refine ⟨fun x hx => ⟨hp x hx, sp x hx, ?_⟩, fun y hy => ⟨hq y hy, sq y hy, ?_⟩,
    fun x hx y hy => ⟨mul_valid ho (hp x hx) (hq y hy), mul_sub ho (hp x hx) (hq y hy) (sp x hx) (sq y hy), h x hx y hy⟩⟩
  · have := h x hx y0 hy0
    have h3 := deg_nonneg (hq y0 hy0)
    exact lt_of_le_of_lt (by omega) this
  · have := h x0 hx0 y hy
    have h3 := deg_nonneg (hp x0 hx0)
    exact lt_of_le_of_lt (by omega) this

theorem E_cap (ho : VarOrd vc) {m : Mono} (hm : Valid vc m) {c : Int} (h : ∀ v, degIn m v < c) : ∀ x ∈ m.data, x.2 < c := by
  intro x hx
  have h1 := h x.1
  rw [degIn_eq ho hm.sorted] at h1
  rwa [E_mem ho hm.sorted hx] at h1

theorem mulFits_lex (ho : VarOrd vc) {p q : PV Mono R} (hp : ∀ t ∈ p, Valid vc t.1) (hq : ∀ t ∈ q, Valid vc t.1) (p0 : p ≠ []) (q0 : q ≠ [])
    (h : ∀ x ∈ p, ∀ y ∈ q, ∀ v, degIn x.1 v + degIn y.1 v < capLex (polyVars p ∪ polyVars q).card) :
    MulFits vc (FitsLex vc) p q := by
  intro vars h1 h2
  obtain ⟨x0, hx0⟩ := List.exists_mem_of_ne_nil _ p0
  obtain ⟨y0, hy0⟩ := List.exists_mem_of_ne_nil _ q0
  have sp : ∀ t ∈ p, ∀ x ∈ t.1.data, x.1 ∈ vars := fun t ht x hx =>
    (h1 _).2 (Finset.mem_union_left _ (mem_polyVars ht hx))
  have sq : ∀ t ∈ q, ∀ x ∈ t.1.data, x.1 ∈ vars := fun t ht x hx =>
    (h1 _).2 (Finset.mem_union_right _ (mem_polyVars ht hx))
  rw [← h2] at h
  have nn : ∀ m, Valid vc m → ∀ v, 0 ≤ degIn m v := fun m hm v => by
    rw [degIn_eq ho hm.sorted]; exact E_nonneg hm.pos v
  refine ⟨fun x hx => ⟨hp x hx, sp x hx, ?_⟩, fun y hy => ⟨hq y hy, sq y hy, ?_⟩,
    fun x hx y hy => ⟨mul_valid ho (hp x hx) (hq y hy), mul_sub ho (hp x hx) (hq y hy) (sp x hx) (sq y hy), ?_⟩⟩
  · refine E_cap ho (hp x hx) fun v => ?_
    have := h x hx y0 hy0 v
    have h3 := nn _ (hq y0 hy0) v
    exact lt_of_le_of_lt (by omega) this
  · refine E_cap ho (hq y hy) fun v => ?_
    have := h x0 hx0 y hy v
    have h3 := nn _ (hp x0 hx0) v
    exact lt_of_le_of_lt (by omega) this
  · have hv := mul_valid ho (hp x hx) (hq y hy)
    refine E_cap ho hv fun v => ?_
    have := h x hx y hy v
    rw [degIn_eq ho hv.sorted, E_mul]
    rw [degIn_eq ho (hp x hx).sorted, degIn_eq ho (hq y hy).sorted] at this
    exact this

end CLPoly
