import Verif.Mono.Defs
import Verif.PairVec.Basic
import Mathlib.Data.Finsupp.Basic
import Mathlib.Data.Finsupp.PWO
import Mathlib.Order.WellQuasiOrder
import Mathlib.Algebra.BigOperators.Group.List.Basic
import Mathlib.Algebra.Order.BigOperators.Group.List
import Mathlib.Data.Finsupp.SMul
import Mathlib.Algebra.Order.BigOperators.Group.Finset
import Mathlib.Algebra.Group.Pi.Lemmas

/-! # Monomial validity, exponent functions, and the order laws -/

namespace CLPoly
namespace Mono

/-- a variable order: strict and total on all variables -/
abbrev VarOrd (vc : Var → Var → Bool) : Prop := Lawful (fun _ => True) vc

/-- what the library calls a normal monomial (with non-negative exponents, as all polynomials have):
variables strictly increasing in the variable order, exponents positive, cached degree correct. -/
structure Valid (vc : Var → Var → Bool) (m : Mono) : Prop where
  sorted : m.data.Pairwise fun a b => vc a.1 b.1 = true
  pos : ∀ x ∈ m.data, 0 < x.2
  deg : m.deg = (m.data.map Prod.snd).sum

/-- valid, and all variables in `V` -/
def ValidIn (vc : Var → Var → Bool) (V : Finset Var) (m : Mono) : Prop :=
  Valid vc m ∧ ∀ x ∈ m.data, x.1 ∈ V

/-- the exponent of every variable: the sum of all entries for it -/
def E (d : List (Var × Int)) : Var → Int := fun v => ((d.filter fun x => x.1 = v).map Prod.snd).sum

/-! ## variable orders -/

theorem varLess_ord : VarOrd varLess where
  irrefl a _ := by simp [varLess]
  trans a b c _ _ _ := by simp only [varLess, decide_eq_true_eq]; intros; unfold Var at *; omega
  total a b _ _ := by simp only [varLess, decide_eq_true_eq]; intros; unfold Var at *; omega

theorem varUni_ord (v : Var) : VarOrd (varUni v) where
  irrefl a _ := by simp [varUni]
  trans a b c _ _ _ := by simp only [varUni, decide_eq_true_eq]; intros; unfold Var at *; omega
  total a b _ _ := by simp only [varUni, decide_eq_true_eq]; intros; unfold Var at *; omega

theorem varCustom_ord (l : List Var) : VarOrd (varCustom l) where
  irrefl a _ := by simp [varCustom]
  trans a b c _ _ _ := by simp only [varCustom, decide_eq_true_eq]; intros; unfold Var at *; omega
  total a b _ _ := by simp only [varCustom, decide_eq_true_eq]; intros; unfold Var at *; omega

section
variable {vc : Var → Var → Bool}

/-! ## exponents -/

theorem E_nil (v : Var) : E [] v = 0 := rfl

theorem E_cons (x : Var × Int) (d : List (Var × Int)) (v : Var) :
    E (x :: d) v = (if x.1 = v then x.2 else 0) + E d v := by
  unfold E
  by_cases h : x.1 = v <;> simp [List.filter_cons, h]

theorem E_not_mem {d : List (Var × Int)} {v : Var} (h : ∀ x ∈ d, x.1 ≠ v) : E d v = 0 := by
  induction d with
  | nil => rfl
  | cons x d ih =>
    rw [E_cons, if_neg (h x (by simp)), ih fun y hy => h y (List.mem_cons_of_mem _ hy), zero_add]

theorem E_nonneg {d : List (Var × Int)} (h : ∀ x ∈ d, 0 < x.2) (v : Var) : 0 ≤ E d v := by
  induction d with
  | nil => exact le_refl _
  | cons x d ih =>
    rw [E_cons]
    have := ih fun y hy => h y (List.mem_cons_of_mem _ hy)
    have := h x (by simp)
    split <;> omega

/-- the additive map behind `E` -/
def Esingle : Var → Int →+ (Var → Int) := fun v => AddMonoidHom.single (fun _ : Var => Int) v

theorem den_Esingle (d : List (Var × Int)) : den Esingle d = E d := by
  induction d with
  | nil => rfl
  | cons x d ih =>
    rw [den_cons, ih]; funext v
    rw [E_cons, Pi.add_apply]
    congr 1
    show (Pi.single x.1 x.2 : Var → Int) v = _
    rw [Pi.single_apply]
    by_cases h : x.1 = v
    · rw [if_pos h, if_pos h.symm]
    · rw [if_neg h, if_neg fun e => h e.symm]

theorem Esep : Separates (fun _ : Var => True) Esingle (fun v f => f v) where
  zero _ := rfl
  add _ _ _ := rfl
  same k c _ := by show (Pi.single k c : Var → Int) k = c; simp
  diff k k' c _ _ h := by show (Pi.single k' c : Var → Int) k = 0; simp [h]

theorem keysTrue {R : Type*} (v : PV Var R) : KeysIn (fun _ : Var => True) v := fun _ _ => trivial

theorem Valid.canon {m : Mono} (h : Valid vc m) : Canon vc m.data := ⟨h.sorted, fun x hx => (h.pos x hx).ne'⟩

theorem E_pvAdd (d1 d2 : List (Var × Int)) : E (pvAdd vc d1 d2) = fun v => E d1 v + E d2 v := by
  rw [← den_Esingle, den_pvAdd, den_Esingle, den_Esingle]; rfl
theorem E_pvSub (d1 d2 : List (Var × Int)) : E (pvSub vc d1 d2) = fun v => E d1 v - E d2 v := by
  rw [← den_Esingle, den_pvSub, den_Esingle, den_Esingle]; rfl

theorem E_inj (ho : VarOrd vc) {d1 d2 : List (Var × Int)} (h1 : Canon vc d1) (h2 : Canon vc d2)
    (h : ∀ v, E d1 v = E d2 v) : d1 = d2 :=
  canon_unique ho Esep (keysTrue _) (keysTrue _) h1 h2 (by rw [den_Esingle, den_Esingle]; exact funext h)

theorem sum_pvAdd (d1 d2 : List (Var × Int)) :
    ((pvAdd vc d1 d2).map Prod.snd).sum = (d1.map Prod.snd).sum + (d2.map Prod.snd).sum :=
  den_pvAdd (fun _ => AddMonoidHom.id Int) vc d1 d2
theorem sum_pvSub (d1 d2 : List (Var × Int)) :
    ((pvSub vc d1 d2).map Prod.snd).sum = (d1.map Prod.snd).sum - (d2.map Prod.snd).sum :=
  den_pvSub (fun _ => AddMonoidHom.id Int) vc d1 d2

theorem E_mem (ho : VarOrd vc) {d : List (Var × Int)} (h : d.Pairwise fun a b => vc a.1 b.1 = true)
    {x : Var × Int} (hx : x ∈ d) : E d x.1 = x.2 := by
  induction d with
  | nil => simp at hx
  | cons y d ih =>
    rw [List.pairwise_cons] at h
    rw [E_cons]
    rcases List.mem_cons.1 hx with rfl | hx
    · rw [if_pos rfl, E_not_mem, add_zero]
      intro z hz e
      have := h.1 z hz
      rw [e, ho.irrefl _ trivial] at this
      exact absurd this (by simp)
    · rw [ih h.2 hx, if_neg, zero_add]
      intro e
      have := h.1 x hx
      rw [e, ho.irrefl _ trivial] at this
      exact absurd this (by simp)

theorem pos_of_E (ho : VarOrd vc) {d : List (Var × Int)} (h : Canon vc d) (hE : ∀ v, 0 ≤ E d v) :
    ∀ x ∈ d, 0 < x.2 := fun x hx => by
  have := hE x.1
  rw [E_mem ho h.1 hx] at this
  have := h.2 x hx
  omega

theorem exists_of_E {d : List (Var × Int)} {v : Var} (h : E d v ≠ 0) : ∃ x ∈ d, x.1 = v := by
  by_contra hn
  push Not at hn
  exact h (E_not_mem hn)

theorem Valid.ext (ho : VarOrd vc) {m1 m2 : Mono} (h1 : Valid vc m1) (h2 : Valid vc m2)
    (h : ∀ v, E m1.data v = E m2.data v) : m1 = m2 := by
  have hd := E_inj ho h1.canon h2.canon h
  have := h1.deg; have h4 := h2.deg
  cases m1; cases m2
  simp only at hd; subst hd
  simp_all

/-- the lexicographic order, on exponent functions: at the most significant variable where they differ, the first is greater. -/
def LexLt (vc : Var → Var → Bool) (f g : Var → Int) : Prop :=
  ∃ v, f v < g v ∧ ∀ u, vc u v = true → f u = g u

theorem pvComp_iff (ho : VarOrd vc) {d1 d2 : List (Var × Int)} (h1 : d1.Pairwise fun a b => vc a.1 b.1 = true)
    (h2 : d2.Pairwise fun a b => vc a.1 b.1 = true) (p1 : ∀ x ∈ d1, 0 < x.2) (p2 : ∀ x ∈ d2, 0 < x.2) :
    pvComp vc gtI d1 d2 = true ↔ LexLt vc (E d2) (E d1) := by
  induction d1 generalizing d2 with
  | nil =>
    simp only [pvComp, Bool.false_eq_true, false_iff]
    rintro ⟨v, hv, _⟩
    have := E_nonneg p2 v
    rw [E_nil] at hv; omega
  | cons x d1 ih =>
    rw [List.pairwise_cons] at h1
    have hx := p1 x (by simp)
    have p1' : ∀ x ∈ d1, 0 < x.2 := fun y hy => p1 y (List.mem_cons_of_mem _ hy)
    have z1 : ∀ u, vc u x.1 = true → E (x :: d1) u = 0 := by
      intro u hu
      apply E_not_mem
      intro y hy e
      rcases List.mem_cons.1 hy with rfl | hy
      · rw [e, ho.irrefl _ trivial] at hu; exact absurd hu (by simp)
      · have := ho.trans _ _ _ trivial trivial trivial hu (h1.1 y hy)
        rw [e, ho.irrefl _ trivial] at this; exact absurd this (by simp)
    have ex1 : E (x :: d1) x.1 = x.2 := E_mem ho (List.pairwise_cons.2 h1) (by simp)
    cases d2 with
    | nil =>
      simp only [pvComp, true_iff]
      exact ⟨x.1, by rw [ex1]; exact hx, fun u hu => by rw [z1 u hu]; rfl⟩
    | cons y d2 =>
      rw [List.pairwise_cons] at h2
      have hy := p2 y (by simp)
      have p2' : ∀ x ∈ d2, 0 < x.2 := fun z hz => p2 z (List.mem_cons_of_mem _ hz)
      have z2 : ∀ u, vc u y.1 = true → E (y :: d2) u = 0 := by
        intro u hu
        apply E_not_mem
        intro w hw e
        rcases List.mem_cons.1 hw with rfl | hw
        · rw [e, ho.irrefl _ trivial] at hu; exact absurd hu (by simp)
        · have := ho.trans _ _ _ trivial trivial trivial hu (h2.1 w hw)
          rw [e, ho.irrefl _ trivial] at this; exact absurd this (by simp)
      have ey : E (y :: d2) y.1 = y.2 := E_mem ho (List.pairwise_cons.2 h2) (by simp)
      simp only [pvComp]
      by_cases hk : x.1 = y.1
      · rw [if_neg (by simpa using hk)]
        by_cases hc : x.2 = y.2
        · rw [if_neg (by simpa using hc), ih h1.2 h2.2 p1' p2']
          have : x = y := Prod.ext hk hc
          subst this
          refine exists_congr fun v => ?_
          simp only [E_cons]
          constructor
          · rintro ⟨a, b⟩; exact ⟨by omega, fun u hu => by rw [b u hu]⟩
          · rintro ⟨a, b⟩; exact ⟨by omega, fun u hu => by have := b u hu; omega⟩
        · rw [if_pos (by simpa using hc)]
          simp only [gtI, decide_eq_true_eq]
          constructor
          · intro h
            exact ⟨x.1, by rw [ex1, hk, ey]; exact h, fun u hu => by rw [z1 u hu, z2 u (hk ▸ hu)]⟩
          · rintro ⟨v, hv, hu⟩
            by_cases e : v = x.1
            · rw [e, ex1, hk, ey] at hv; omega
            · rcases ho.total v x.1 trivial trivial e with h | h
              · rw [z1 v h, z2 v (hk ▸ h)] at hv; omega
              · have := hu _ h
                rw [ex1, hk, ey] at this; omega
      · rw [if_pos (by simpa using hk)]
        constructor
        · intro h
          exact ⟨x.1, by rw [ex1, z2 _ h]; exact hx, fun u hu => by
            rw [z1 u hu, z2 u (ho.trans _ _ _ trivial trivial trivial hu h)]⟩
        · rintro ⟨v, hv, hu⟩
          by_contra hn
          have h : vc y.1 x.1 = true := (ho.total _ _ trivial trivial hk).resolve_left hn
          by_cases e : v = y.1
          · rw [e, ey, z1 _ h] at hv; omega
          · rcases ho.total v y.1 trivial trivial e with h' | h'
            · rw [z2 v h', z1 v (ho.trans _ _ _ trivial trivial trivial h' h)] at hv; omega
            · have := hu _ h'
              rw [ey, z1 _ h] at this; omega

theorem LexLt.trans (ho : VarOrd vc) {f g h : Var → Int} (h1 : LexLt vc f g) (h2 : LexLt vc g h) : LexLt vc f h := by
  obtain ⟨v, a, b⟩ := h1
  obtain ⟨w, c, d⟩ := h2
  by_cases e : v = w
  · subst e; exact ⟨v, a.trans c, fun u hu => (b u hu).trans (d u hu)⟩
  · rcases ho.total v w trivial trivial e with h | h
    · exact ⟨v, (d v h) ▸ a, fun u hu => (b u hu).trans (d u (ho.trans _ _ _ trivial trivial trivial hu h))⟩
    · exact ⟨w, (b w h) ▸ c, fun u hu => (b u (ho.trans _ _ _ trivial trivial trivial hu h)).trans (d u hu)⟩

theorem LexLt.irrefl {f : Var → Int} : ¬ LexLt vc f f := fun ⟨_, a, _⟩ => lt_irrefl _ a

theorem LexLt.add {f g h : Var → Int} (h1 : LexLt vc f g) : LexLt vc (fun v => f v + h v) (fun v => g v + h v) := by
  obtain ⟨v, a, b⟩ := h1
  exact ⟨v, by simpa using a, fun u hu => by simpa using b u hu⟩

/-- two lists compare one way or the other unless they are equal -/
theorem pvComp_total (ho : VarOrd vc) {d1 d2 : List (Var × Int)} (h : d1 ≠ d2) :
    pvComp vc gtI d1 d2 = true ∨ pvComp vc gtI d2 d1 = true := by
  induction d1 generalizing d2 with
  | nil => cases d2 with
    | nil => exact absurd rfl h
    | cons y d2 => exact .inr rfl
  | cons x d1 ih => cases d2 with
    | nil => exact .inl rfl
    | cons y d2 =>
      simp only [pvComp]
      by_cases hk : x.1 = y.1
      · by_cases hc : x.2 = y.2
        · simp only [hk, hc, ne_eq, not_true_eq_false, if_false]
          exact ih fun e => h (by rw [e, Prod.ext hk hc])
        · simp only [hk, ne_eq, not_true_eq_false, if_false, hc, not_false_eq_true, if_true, Ne.symm hc]
          simp only [gtI, decide_eq_true_eq]; omega
      · simp only [ne_eq, hk, not_false_eq_true, if_true, Ne.symm hk]
        exact ho.total _ _ trivial trivial hk

/-! ## the degree as a sum over the variables -/

theorem sum_E_le {V : Finset Var} (d : List (Var × Int)) (h : ∀ x ∈ d, x.1 ∈ V) :
    (d.map Prod.snd).sum = ∑ v ∈ V, E d v := by
  induction d with
  | nil => simp [E_nil]
  | cons x d ih =>
    simp only [E_cons, Finset.sum_add_distrib]
    rw [List.map_cons, List.sum_cons, ih fun y hy => h y (List.mem_cons_of_mem _ hy), Finset.sum_ite_eq,
      if_pos (h x (by simp))]

/-! ## products and quotients -/

theorem mul_valid (ho : VarOrd vc) {a b : Mono} (ha : Valid vc a) (hb : Valid vc b) : Valid vc (mul vc a b) where
  sorted := (pvAdd_canon ho (keysTrue _) (keysTrue _) ha.canon hb.canon).1
  pos := by
    apply pos_of_E ho (pvAdd_canon ho (keysTrue _) (keysTrue _) ha.canon hb.canon)
    intro v
    show 0 ≤ E (pvAdd vc a.data b.data) v
    rw [E_pvAdd]
    exact add_nonneg (E_nonneg ha.pos v) (E_nonneg hb.pos v)
  deg := by show a.deg + b.deg = _; rw [ha.deg, hb.deg]; exact (sum_pvAdd _ _).symm

theorem mul_validIn (ho : VarOrd vc) {V : Finset Var} {a b : Mono} (ha : ValidIn vc V a) (hb : ValidIn vc V b) :
    ValidIn vc V (mul vc a b) :=
  ⟨mul_valid ho ha.1 hb.1, pvAdd_keysIn (S := fun v => v ∈ V) ha.2 hb.2⟩

theorem E_mul (a b : Mono) : E (mul vc a b).data = fun v => E a.data v + E b.data v := E_pvAdd _ _

theorem mul_comm' (ho : VarOrd vc) {a b : Mono} (ha : Valid vc a) (hb : Valid vc b) : mul vc a b = mul vc b a :=
  (mul_valid ho ha hb).ext ho (mul_valid ho hb ha) fun v => by simp only [E_mul]; exact add_comm _ _

theorem divExact_iff (ho : VarOrd vc) {V : Finset Var} {m l q : Mono} (hm : ValidIn vc V m) (hl : ValidIn vc V l) :
    divExact vc m l = some q ↔ ValidIn vc V q ∧ mul vc q l = m := by
  have hc := pvSub_canon (comp := vc) ho (keysTrue m.data) (keysTrue l.data) hm.1.canon hl.1.canon
  have hk := pvSub_keysIn (comp := vc) (S := fun v => v ∈ V) hm.2 hl.2
  have hs : m.deg - l.deg = ((pvSub vc m.data l.data).map Prod.snd).sum := by
    rw [hm.1.deg, hl.1.deg, sum_pvSub]
  constructor
  · intro h
    unfold divExact at h
    simp only at h
    split at h
    · exact absurd h (by simp)
    · split at h
      · exact absurd h (by simp)
      · rename_i h0 h1
        have hq : q = ⟨pvSub vc m.data l.data, m.deg - l.deg⟩ := (Option.some.inj h).symm
        subst hq
        have hv : Valid vc (⟨pvSub vc m.data l.data, m.deg - l.deg⟩ : Mono) :=
          ⟨hc.1, fun x hx => by
            have h2 : ∀ x ∈ pvSub vc m.data l.data, ¬ x.2 < 0 := by simpa using h1
            have := h2 x hx
            have := hc.2 x hx
            omega, hs⟩
        refine ⟨⟨hv, hk⟩, (mul_valid ho hv hl.1).ext ho hm.1 fun v => ?_⟩
        rw [E_mul]
        show E (pvSub vc m.data l.data) v + _ = _
        rw [E_pvSub]; ring
  · rintro ⟨hq, hmul⟩
    have hd : pvSub vc m.data l.data = q.data := by
      apply E_inj ho hc hq.1.canon
      intro v
      rw [E_pvSub, ← hmul, E_mul]; ring
    have hdeg : m.deg - l.deg = q.deg := by rw [← hmul]; show q.deg + l.deg - l.deg = _; ring
    unfold divExact
    simp only [hd, hdeg]
    have : 0 ≤ q.deg := by
      rw [hq.1.deg]
      apply List.sum_nonneg
      intro x hx
      obtain ⟨y, hy, rfl⟩ := List.mem_map.1 hx
      exact (hq.1.pos y hy).le
    rw [if_neg (by omega), if_neg]
    simp only [List.any_eq_true, decide_eq_true_eq, not_exists, not_and]
    intro x hx
    have := hq.1.pos x hx
    omega

/-! ## the orders are lawful, multiplicative, and well-founded on finitely many variables -/

/-- what makes a monomial comparator a monomial order, in terms of exponents -/
structure MonoOrd (vc : Var → Var → Bool) (mc : Mono → Mono → Bool) : Prop where
  vo : VarOrd vc
  lawful : Lawful (Valid vc) mc
  mono : ∀ a b c, Valid vc a → Valid vc b → Valid vc c → mc a b = true → mc (mul vc a c) (mul vc b c) = true
  dom : ∀ a b, Valid vc a → Valid vc b → (∀ v, E a.data v ≤ E b.data v) → mc a b = false

theorem lex_ord (ho : VarOrd vc) : MonoOrd vc (lexGt vc) where
  vo := ho
  lawful := {
    irrefl := fun a ha => by
      by_contra h
      rw [Bool.not_eq_false, lexGt, pvComp_iff ho ha.sorted ha.sorted ha.pos ha.pos] at h
      exact LexLt.irrefl h
    trans := fun a b c ha hb hc h1 h2 => by
      rw [lexGt, pvComp_iff ho ha.sorted hb.sorted ha.pos hb.pos] at h1
      rw [lexGt, pvComp_iff ho hb.sorted hc.sorted hb.pos hc.pos] at h2
      rw [lexGt, pvComp_iff ho ha.sorted hc.sorted ha.pos hc.pos]
      exact LexLt.trans ho h2 h1
    total := fun a b ha hb hne => by
      refine pvComp_total ho fun e => hne ?_
      exact ha.ext ho hb fun v => by rw [e] }
  mono a b c ha hb hc h := by
    have hac := mul_valid ho ha hc
    have hbc := mul_valid ho hb hc
    rw [lexGt, pvComp_iff ho ha.sorted hb.sorted ha.pos hb.pos] at h
    rw [lexGt, pvComp_iff ho hac.sorted hbc.sorted hac.pos hbc.pos, E_mul, E_mul]
    exact h.add
  dom a b ha hb h := by
    by_contra hc
    rw [Bool.not_eq_false, lexGt, pvComp_iff ho ha.sorted hb.sorted ha.pos hb.pos] at hc
    obtain ⟨v, hv, _⟩ := hc
    have := h v
    omega

theorem grlexGt_iff (ho : VarOrd vc) {a b : Mono} (ha : Valid vc a) (hb : Valid vc b) :
    grlexGt vc a b = true ↔ b.deg < a.deg ∨ (a.deg = b.deg ∧ LexLt vc (E b.data) (E a.data)) := by
  simp only [grlexGt, Bool.or_eq_true, decide_eq_true_eq, Bool.and_eq_true,
    pvComp_iff ho ha.sorted hb.sorted ha.pos hb.pos]

theorem deg_le_of_E {a b : Mono} (ha : Valid vc a) (hb : Valid vc b) (h : ∀ v, E a.data v ≤ E b.data v) :
    a.deg ≤ b.deg := by
  let V : Finset Var := (a.data.map Prod.fst).toFinset ∪ (b.data.map Prod.fst).toFinset
  have h1 : ∀ x ∈ a.data, x.1 ∈ V := fun x hx => by
    refine Finset.mem_union_left _ (List.mem_toFinset.2 (List.mem_map.2 ⟨x, hx, rfl⟩))
  have h2 : ∀ x ∈ b.data, x.1 ∈ V := fun x hx => by
    refine Finset.mem_union_right _ (List.mem_toFinset.2 (List.mem_map.2 ⟨x, hx, rfl⟩))
  rw [ha.deg, hb.deg, sum_E_le _ h1, sum_E_le _ h2]
  exact Finset.sum_le_sum fun v _ => h v

theorem grlex_ord (ho : VarOrd vc) : MonoOrd vc (grlexGt vc) where
  vo := ho
  lawful := {
    irrefl := fun a ha => by
      by_contra h
      rw [Bool.not_eq_false, grlexGt_iff ho ha ha] at h
      rcases h with h | h
      · omega
      · exact LexLt.irrefl h.2
    trans := fun a b c ha hb hc h1 h2 => by
      rw [grlexGt_iff ho ha hb] at h1
      rw [grlexGt_iff ho hb hc] at h2
      rw [grlexGt_iff ho ha hc]
      rcases h1 with h1 | ⟨h1, l1⟩ <;> rcases h2 with h2 | ⟨h2, l2⟩
      · left; omega
      · left; omega
      · left; omega
      · exact .inr ⟨h1.trans h2, LexLt.trans ho l2 l1⟩
    total := fun a b ha hb hne => by
      have : a.data ≠ b.data := fun e => hne (ha.ext ho hb fun v => by rw [e])
      simp only [grlexGt, Bool.or_eq_true, decide_eq_true_eq, Bool.and_eq_true]
      rcases pvComp_total ho this with h | h
      · rcases lt_trichotomy a.deg b.deg with h' | h' | h'
        · exact .inr (.inl h')
        · exact .inl (.inr ⟨h', h⟩)
        · exact .inl (.inl h')
      · rcases lt_trichotomy a.deg b.deg with h' | h' | h'
        · exact .inr (.inl h')
        · exact .inr (.inr ⟨h'.symm, h⟩)
        · exact .inl (.inl h') }
  mono a b c ha hb hc h := by
    have hac := mul_valid ho ha hc
    have hbc := mul_valid ho hb hc
    rw [grlexGt_iff ho ha hb] at h
    rw [grlexGt_iff ho hac hbc, E_mul, E_mul]
    show b.deg + c.deg < a.deg + c.deg ∨ (a.deg + c.deg = b.deg + c.deg ∧ _)
    rcases h with h | ⟨h, l⟩
    · left; omega
    · exact .inr ⟨by omega, l.add⟩
  dom a b ha hb h := by
    by_contra hc
    rw [Bool.not_eq_false, grlexGt_iff ho ha hb] at hc
    have := deg_le_of_E ha hb h
    rcases hc with hc | ⟨_, v, hv, _⟩
    · omega
    · have := h v
      omega

/-- Dickson's lemma in action: no infinite descent among monomials in finitely many variables -/
theorem MonoOrd.wf {mc : Mono → Mono → Bool} (M : MonoOrd vc mc) (V : Finset Var) :
    WellFounded fun a b : {m // ValidIn vc V m} => mc b.1 a.1 = true := by
  rw [wellFounded_iff_isEmpty_descending_chain]
  refine ⟨fun ⟨f, hf⟩ => ?_⟩
  have htrans : ∀ i j, i < j → mc (f i).1 (f j).1 = true := by
    intro i j hij
    induction j, hij using Nat.le_induction with
    | base => exact hf i
    | succ j hj ih => exact M.lawful.trans _ _ _ (f i).2.1 (f j).2.1 (f (j+1)).2.1 ih (hf j)
  let g : ℕ → (V → ℕ) := fun n v => (E (f n).1.data v.1).toNat
  obtain ⟨i, j, hij, hle⟩ := (wellQuasiOrdered_le (α := V → ℕ)) g
  have hle' : ∀ v, E (f i).1.data v ≤ E (f j).1.data v := by
    intro v
    by_cases hv : v ∈ V
    · have h1 : (E (f i).1.data v).toNat ≤ (E (f j).1.data v).toNat := hle ⟨v, hv⟩
      have := E_nonneg (f i).2.1.pos v
      have := E_nonneg (f j).2.1.pos v
      omega
    · rw [E_not_mem (v := v) fun x hx e => hv (e ▸ (f i).2.2 x hx), E_not_mem (v := v) fun x hx e => hv (e ▸ (f j).2.2 x hx)]
  have := M.dom _ _ (f i).2.1 (f j).2.1 hle'
  rw [htrans i j hij] at this
  exact absurd this (by simp)

end
end Mono
end CLPoly
