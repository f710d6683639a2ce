import Verif.Mono.Order
import Verif.PairVec.System
import Mathlib.Algebra.MvPolynomial.Basic

/-! # Monomials of the library form a monomial system; the value of a polynomial

`expo m` is the exponent vector of a monomial, `val p` the element of `MvPolynomial Var R` that the
term vector `p` stands for. -/

namespace CLPoly
open Mono

namespace Mono
/-- exponent vector -/
noncomputable def expo (m : Mono) : Var →₀ ℕ := (m.data.map fun x => Finsupp.single x.1 x.2.toNat).sum
end Mono

/-- the polynomial a term `c·m` stands for -/
noncomputable def termVal (R : Type*) [CommRing R] : Mono → R →+ MvPolynomial Var R :=
  fun m => (MvPolynomial.monomial (expo m)).toAddMonoidHom

/-- the polynomial a term vector stands for -/
noncomputable def val {R : Type*} [CommRing R] (p : PV Mono R) : MvPolynomial Var R :=
  (p.map fun t => MvPolynomial.monomial (expo t.1) t.2).sum

/-- a polynomial in the library's normal form: valid monomials, strictly decreasing, no zero coefficient -/
structure PolyOK {R : Type*} [CommRing R] (vc : Var → Var → Bool) (mc : Mono → Mono → Bool) (p : PV Mono R) : Prop where
  monos : ∀ t ∈ p, Mono.Valid vc t.1
  canon : Canon mc p

theorem den_termVal {R : Type*} [CommRing R] (p : PV Mono R) : den (termVal R) p = val p := rfl

namespace Mono
variable {vc : Var → Var → Bool} {mc : Mono → Mono → Bool}

theorem expo_eq {m : Mono} (h : ∀ x ∈ m.data, 0 < x.2) (v : Var) : (expo m v : ℤ) = E m.data v := by
  unfold expo
  generalize m.data = d at h
  induction d with
  | nil => rfl
  | cons x d ih =>
    rw [List.map_cons, List.sum_cons, Finsupp.add_apply, E_cons, Nat.cast_add,
      ih fun y hy => h y (List.mem_cons_of_mem _ hy), Finsupp.single_apply]
    congr 1
    have := h x (by simp)
    split
    · omega
    · rfl

theorem expo_toNat {m : Mono} (h : ∀ x ∈ m.data, 0 < x.2) (v : Var) : expo m v = (E m.data v).toNat := by
  rw [← expo_eq h v, Int.toNat_natCast]

theorem Valid.expo_eq {m : Mono} (h : Valid vc m) (v : Var) : (expo m v : ℤ) = E m.data v := Mono.expo_eq h.pos v

theorem expo_inj (ho : VarOrd vc) {a b : Mono} (ha : Valid vc a) (hb : Valid vc b) (h : expo a = expo b) : a = b :=
  ha.ext ho hb fun v => by rw [← ha.expo_eq, ← hb.expo_eq, h]

theorem expo_mul (ho : VarOrd vc) {a b : Mono} (ha : Valid vc a) (hb : Valid vc b) :
    expo (mul vc a b) = expo a + expo b := by
  ext v
  have h := (mul_valid ho ha hb).expo_eq v
  rw [E_mul] at h
  simp only [← ha.expo_eq, ← hb.expo_eq] at h
  rw [Finsupp.add_apply]
  exact_mod_cast h

theorem expo_one : expo one = 0 := rfl
theorem one_valid : Valid vc one := ⟨List.Pairwise.nil, by simp [one], rfl⟩

theorem monoSys {R : Type*} [CommRing R] (M : MonoOrd vc mc) (V : Finset Var) :
    MonoSys (ValidIn vc V) mc (mul vc) (divExact vc) (termVal R) (fun m f => f.coeff (expo m)) where
  lawful := {
    irrefl := fun a ha => M.lawful.irrefl a ha.1
    trans := fun a b c ha hb hc => M.lawful.trans a b c ha.1 hb.1 hc.1
    total := fun a b ha hb => M.lawful.total a b ha.1 hb.1 }
  wf := M.wf V
  mulS a b ha hb := mul_validIn M.vo ha hb
  comm a b ha hb := mul_comm' M.vo ha.1 hb.1
  mono a b c ha hb hc := M.mono a b c ha.1 hb.1 hc.1
  div m l q hm hl := divExact_iff M.vo hm hl
  term a b ha hb c d := by
    show MvPolynomial.monomial _ _ = MvPolynomial.monomial _ _ * MvPolynomial.monomial _ _
    rw [MvPolynomial.monomial_mul, expo_mul M.vo ha.1 hb.1]
  sep := {
    zero := fun k => MvPolynomial.coeff_zero _
    add := fun k a b => MvPolynomial.coeff_add _ _ _
    same := fun k c _ => by
      show MvPolynomial.coeff _ (MvPolynomial.monomial _ _) = _
      rw [MvPolynomial.coeff_monomial, if_pos rfl]
    diff := fun k k' c hk hk' hne => by
      show MvPolynomial.coeff _ (MvPolynomial.monomial _ _) = _
      rw [MvPolynomial.coeff_monomial, if_neg]
      exact fun e => hne (expo_inj M.vo hk'.1 hk.1 e).symm }

/-- the variables of a monomial -/
def varsOf (m : Mono) : Finset Var := (m.data.map Prod.fst).toFinset

theorem validIn_varsOf {m : Mono} (h : Valid vc m) {V : Finset Var} (hV : varsOf m ⊆ V) : ValidIn vc V m :=
  ⟨h, fun x hx => hV (List.mem_toFinset.2 (List.mem_map.2 ⟨x, hx, rfl⟩))⟩

end Mono

/-- the variables of a polynomial -/
def polyVars {R : Type*} (p : PV Mono R) : Finset Var := (p.flatMap fun t => t.1.data.map Prod.fst).toFinset

variable {R : Type*} [CommRing R] {vc : Var → Var → Bool} {mc : Mono → Mono → Bool} {p q : PV Mono R}

omit [CommRing R] in
theorem keysIn_polyVars (h : ∀ t ∈ p, Mono.Valid vc t.1) {V : Finset Var} (hV : polyVars p ⊆ V) :
    KeysIn (ValidIn vc V) p := fun t ht =>
  ⟨h t ht, fun x hx => hV (List.mem_toFinset.2 (List.mem_flatMap.2 ⟨t, ht, List.mem_map.2 ⟨x, hx, rfl⟩⟩))⟩

theorem PolyOK.keysIn (h : PolyOK vc mc p) {V : Finset Var} (hV : polyVars p ⊆ V) : KeysIn (ValidIn vc V) p :=
  keysIn_polyVars h.monos hV

theorem PolyOK.of_keysIn {V : Finset Var} (h : KeysIn (ValidIn vc V) p) (hc : Canon mc p) : PolyOK vc mc p :=
  ⟨fun t ht => (h t ht).1, hc⟩

theorem PolyOK.nil : PolyOK vc mc ([] : PV Mono R) := ⟨by simp, List.Pairwise.nil, by simp⟩

theorem PolyOK.ext (M : MonoOrd vc mc) (hp : PolyOK vc mc p) (hq : PolyOK vc mc q) (h : val p = val q) : p = q :=
  have hV := monoSys (R := R) M (polyVars p ∪ polyVars q)
  canon_unique hV.lawful hV.sep (hp.keysIn Finset.subset_union_left) (hq.keysIn Finset.subset_union_right)
    hp.canon hq.canon h

theorem val_nil : val ([] : PV Mono R) = 0 := rfl
theorem val_cons (t : Mono × R) (p : PV Mono R) : val (t :: p) = MvPolynomial.monomial (expo t.1) t.2 + val p := by
  simp [val]
theorem val_append (p q : PV Mono R) : val (p ++ q) = val p + val q := by simp [val]

end CLPoly
