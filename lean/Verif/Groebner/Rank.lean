import Verif.Groebner.Update
import Verif.Groebner.Defs
import Verif.Poly.ScalarSpec
import Verif.Poly.PowSpec

/-! # From the library's monomials to exponent vectors -/

namespace CLPoly.GB
open CLPoly Mono

variable {vc : Var → Var → Bool} {mc : Mono → Mono → Bool}

/-- the library monomial of an exponent vector (proof device) -/
noncomputable def ofExpo (vc : Var → Var → Bool) (s : Var →₀ ℕ) : Mono :=
  normalize vc (s.support.toList.map fun v => (v, (s v : ℤ)))

theorem ofExpo_valid (ho : VarOrd vc) (s : Var →₀ ℕ) : Valid vc (ofExpo vc s) :=
  normalize_valid ho _ (by
    intro x hx
    obtain ⟨v, _, rfl⟩ := List.mem_map.1 hx
    exact Int.natCast_nonneg _)

theorem E_ofExpo (s : Var →₀ ℕ) (v : Var) : E (ofExpo vc s).data v = s v := by
  unfold ofExpo
  rw [E_normalize]
  have hnd := s.support.nodup_toList
  have hm : ∀ u, u ∈ s.support.toList ↔ s u ≠ 0 := fun u => by rw [Finset.mem_toList, Finsupp.mem_support_iff]
  have key : ∀ l : List Var, l.Nodup → E (l.map fun v => (v, (s v : ℤ))) v = if v ∈ l then (s v : ℤ) else 0 := by
    intro l hl
    induction l with
    | nil => rfl
    | cons u l ih =>
      rw [List.map_cons, E_cons, ih (List.nodup_cons.1 hl).2]
      by_cases h : u = v
      · subst h
        simp [(List.nodup_cons.1 hl).1]
      · simp [h, Ne.symm h]
  rw [key _ hnd]
  split
  · rfl
  · rename_i h
    rw [hm, not_not] at h
    rw [h]; rfl

theorem expo_ofExpo (ho : VarOrd vc) (s : Var →₀ ℕ) : expo (ofExpo vc s) = s := by
  ext v
  have := (ofExpo_valid ho s).expo_eq v
  rw [E_ofExpo] at this
  exact_mod_cast this

theorem ofExpo_expo (ho : VarOrd vc) {m : Mono} (h : Valid vc m) : ofExpo vc (expo m) = m :=
  expo_inj ho (ofExpo_valid ho _) h (expo_ofExpo ho _)

theorem ofExpo_add (ho : VarOrd vc) (a b : Var →₀ ℕ) : ofExpo vc (a + b) = mul vc (ofExpo vc a) (ofExpo vc b) :=
  expo_inj ho (ofExpo_valid ho _) (mul_valid ho (ofExpo_valid ho _) (ofExpo_valid ho _)) (by
    rw [expo_mul ho (ofExpo_valid ho _) (ofExpo_valid ho _), expo_ofExpo ho, expo_ofExpo ho, expo_ofExpo ho])

/-- the monomials with variables in `V` -/
theorem validIn_iff (ho : VarOrd vc) {V : Finset Var} {m : Mono} (h : Valid vc m) : ValidIn vc V m ↔ (expo m).support ⊆ V := by
  constructor
  · rintro ⟨_, h2⟩ v hv
    by_contra hc
    refine (Finsupp.mem_support_iff.1 hv) ?_
    have := h.expo_eq v
    rw [E_not_mem (v := v) fun x hx e => hc (e ▸ h2 x hx)] at this
    exact_mod_cast this
  · intro hs
    refine ⟨h, fun x hx => hs ?_⟩
    rw [Finsupp.mem_support_iff]
    intro h0
    have e := h.expo_eq x.1
    rw [h0, E_mem ho h.sorted hx] at e
    have := h.pos x hx
    simp at e
    omega

theorem polyVars_keysIn (ho : VarOrd vc) {R : Type*} {V : Finset Var} {p : PV Mono R} (h : ∀ t ∈ p, Valid vc t.1) :
    KeysIn (ValidIn vc V) p ↔ ∀ t ∈ p, (expo t.1).support ⊆ V :=
  ⟨fun hk t ht => (validIn_iff ho (h t ht)).1 (hk t ht), fun hk t ht => (validIn_iff ho (h t ht)).2 (hk t ht)⟩

/-- a rank of exponent vectors that explains the monomial order -/
theorem exists_erank (M : MonoOrd vc mc) : ∃ (L : Type) (_ : LinearOrder L) (r : (Var →₀ ℕ) → L), ERank r ∧
    ∀ a b, Valid vc a → Valid vc b → (mc a b = true ↔ r (expo b) < r (expo a)) := by
  obtain ⟨L, iL, r0, hr⟩ := M.lawful.exists_rank
  have va := ofExpo_valid (vc := vc) M.vo
  have hlt : ∀ a b, r0 (ofExpo vc a) < r0 (ofExpo vc b) ↔ mc (ofExpo vc b) (ofExpo vc a) = true := fun a b =>
    (hr.comp_iff _ _ (va b) (va a)).symm
  refine ⟨L, iL, fun s => r0 (ofExpo vc s), ⟨?_, ?_, ?_, ?_⟩, ?_⟩
  · intro a b h
    have := hr.inj _ _ (va a) (va b) h
    rw [← expo_ofExpo M.vo a, ← expo_ofExpo M.vo b, this]
  · intro a b c h
    rw [hlt] at h ⊢
    rw [add_comm c, add_comm c, ofExpo_add M.vo, ofExpo_add M.vo]
    exact M.mono _ _ _ (va b) (va a) (va c) h
  · intro a b h
    by_contra hc
    rw [not_le, hlt] at hc
    have := M.dom _ _ (va a) (va b) (fun v => by rw [E_ofExpo, E_ofExpo]; exact_mod_cast h v)
    rw [hc] at this; exact absurd this (by simp)
  · intro V
    refine Subrelation.wf (r := InvImage (fun a b : {m // ValidIn vc V m} => mc b.1 a.1 = true)
      (fun s : {s : Var →₀ ℕ // s.support ⊆ V} => ⟨ofExpo vc s.1, (validIn_iff M.vo (va _)).2 (by rw [expo_ofExpo M.vo]; exact s.2)⟩))
      ?_ (InvImage.wf _ (M.wf V))
    intro a b h
    exact (hlt _ _).1 h
  · intro a b ha hb
    simp only [ofExpo_expo M.vo ha, ofExpo_expo M.vo hb]
    exact hr.comp_iff _ _ ha hb

end CLPoly.GB
