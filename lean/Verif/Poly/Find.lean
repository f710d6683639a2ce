import Verif.Poly.Support

/-! # `find` (/repo/clpoly/basic_polynomial.hh 409–423, basic.hh 126–131) -/

namespace CLPoly
open Mono MvPolynomial

section
variable {α K R : Type _}

/-- `std::lower_bound` (libstdc++ `__lower_bound`): `first` and `len` of the range that is left; `lt x`: `x` comes before the value.  The first argument bounds the rounds
(the length of the range is enough, every round makes `len` smaller) -/
def lowerBoundGo (lt : α → Bool) (v : List α) : ℕ → ℕ → ℕ → ℕ
  | 0, first, _ => first
  | f + 1, first, len =>
    if len = 0 then first
    else
      match v[first + len / 2]? with
      | none => first
      | some x => if lt x then lowerBoundGo lt v f (first + len / 2 + 1) (len - len / 2 - 1) else lowerBoundGo lt v f first (len / 2)

/-- `std::lower_bound(begin, end, value, comp)` -/
def lowerBound (lt : α → Bool) (v : List α) : ℕ := lowerBoundGo lt v v.length 0 v.length

/-- basic.hh 126–131 `pair_vec_find_first`, basic_polynomial.hh 409–423 `find(m)`: the position of the term, `none` for `end()` -/
def pvFind [DecidableEq K] (comp : K → K → Bool) (v : PV K R) (m : K) : Option ℕ :=
  match v[lowerBound (fun t : K × R => comp t.1 m) v]? with
  | none => none
  | some t => if m = t.1 then some (lowerBound (fun t : K × R => comp t.1 m) v) else none

theorem lowerBoundGo_spec (lt : α → Bool) (v : List α) : ∀ (f first len : ℕ), len ≤ f → first + len ≤ v.length →
    (∀ i j (hi : i < v.length) (hj : j < v.length), i ≤ j → lt v[j] = true → lt v[i] = true) →
    (∀ i (h : i < v.length), i < first → lt v[i] = true) → (∀ i (h : i < v.length), first + len ≤ i → lt v[i] = false) →
    (∀ i (h : i < v.length), i < lowerBoundGo lt v f first len → lt v[i] = true) ∧
    (∀ i (h : i < v.length), lowerBoundGo lt v f first len ≤ i → lt v[i] = false) := by
  intro f
  induction f with
  | zero =>
    intro first len h1 _ _ h3 h4
    exact ⟨h3, fun i h hi => h4 i h (by simpa [lowerBoundGo, show len = 0 by omega] using hi)⟩
  | succ f ih =>
    intro first len h1 h2 hm h3 h4
    unfold lowerBoundGo
    by_cases h0 : len = 0
    · rw [if_pos h0]
      exact ⟨h3, fun i h hi => h4 i h (by omega)⟩
    · rw [if_neg h0]
      have hlt : first + len / 2 < v.length := by omega
      rw [List.getElem?_eq_getElem hlt]
      dsimp only
      by_cases hx : lt v[first + len / 2] = true
      · rw [if_pos hx]
        refine ih _ _ (by omega) (by omega) hm (fun i h hi => hm i _ h hlt (by omega) hx) (fun i h hi => h4 i h (by omega))
      · rw [if_neg hx]
        refine ih _ _ (by omega) (by omega) hm h3 (fun i h hi => ?_)
        cases hc : lt v[i] with
        | false => rfl
        | true => exact absurd (hm _ i hlt h hi hc) hx

/-- on a sorted vector `find` returns the position of the term with the given key -/
theorem pvFind_spec [DecidableEq K] {S : K → Prop} {comp : K → K → Bool} (L : Lawful S comp) {v : PV K R} (hk : KeysIn S v) (hs : v.Pairwise fun a b => comp a.1 b.1 = true)
    {m : K} (hm : S m) :
    (∀ i, pvFind comp v m = some i ↔ ∃ h : i < v.length, v[i].1 = m) := by
  have hS : ∀ i (h : i < v.length), S v[i].1 := fun i h => hk _ (List.getElem_mem h)
  have hcmp : ∀ i j (hi : i < v.length) (hj : j < v.length), i < j → comp v[i].1 v[j].1 = true := fun i j hi hj h => List.pairwise_iff_getElem.1 hs i j hi hj h
  obtain ⟨h1, h2⟩ := lowerBoundGo_spec (fun t : K × R => comp t.1 m) v v.length 0 v.length le_rfl (by omega)
    (fun i j hi hj hij h => by
      rcases Nat.eq_or_lt_of_le hij with rfl | hlt
      · exact h
      · exact L.trans _ _ _ (hS i hi) (hS j hj) hm (hcmp i j hi hj hlt) h) (fun i _ h => by omega) (fun i h hi => by omega)
  intro i
  obtain ⟨p, hp⟩ : ∃ p, p = lowerBound (fun t : K × R => comp t.1 m) v := ⟨_, rfl⟩
  have hp' : lowerBoundGo (fun t : K × R => comp t.1 m) v v.length 0 v.length = p := hp.symm
  rw [hp'] at h1 h2
  unfold pvFind
  rw [← hp]
  have huniq : ∀ (h : i < v.length), v[i].1 = m → i = p := by
    intro h e
    rcases lt_trichotomy i p with hlt | heq | hgt
    · have := h1 i h hlt
      rw [e, L.irrefl _ hm] at this
      exact absurd this (by simp)
    · exact heq
    · have := h2 p (by omega) le_rfl
      have h3 := hcmp p i (by omega) h hgt
      rw [e] at h3
      rw [h3] at this
      exact absurd this (by simp)
  by_cases hpl : p < v.length
  · rw [List.getElem?_eq_getElem hpl]
    dsimp only
    by_cases he : m = v[p].1
    · rw [if_pos he]
      constructor
      · intro h
        simp only [Option.some.injEq] at h
        subst h
        exact ⟨hpl, he.symm⟩
      · rintro ⟨h, e⟩
        rw [huniq h e]
    · rw [if_neg he]
      constructor
      · intro h; exact absurd h (by simp)
      · rintro ⟨h, e⟩
        have := huniq h e
        subst this
        exact absurd e.symm he
  · rw [List.getElem?_eq_none (by omega)]
    constructor
    · intro h; exact absurd h (by simp)
    · rintro ⟨h, e⟩
      rw [huniq h e] at h
      exact absurd h hpl

end

variable {vc : Var → Var → Bool} {mc : Mono → Mono → Bool} {R : Type*} [CommRing R]

/-- `find(m)` on a canonical polynomial -/
theorem find_spec (M : MonoOrd vc mc) {p : PV Mono R} (hp : PolyOK vc mc p) {m : Mono} (hm : Valid vc m) :
    (pvFind mc p m = none ↔ coeff (expo m) (val p) = 0) ∧
    ∀ i, pvFind mc p m = some i → ∃ h : i < p.length, p[i] = (m, coeff (expo m) (val p)) := by
  have key := pvFind_spec M.lawful hp.monos hp.canon.1 hm
  have hmem : ∀ i (h : i < p.length), p[i].1 = m → p[i].2 = coeff (expo m) (val p) := fun i h e => by
    rw [← hp.coeff_mem M (List.getElem_mem h), e]
  refine ⟨⟨fun h => ?_, fun h => ?_⟩, fun i hi => ?_⟩
  · refine coeff_val_not_mem fun t ht e => ?_
    obtain ⟨i, hi, rfl⟩ := List.getElem_of_mem ht
    have := (key i).2 ⟨hi, expo_inj M.vo (hp.monos _ ht) hm e⟩
    rw [h] at this
    exact absurd this (by simp)
  · cases e : pvFind mc p m with
    | none => rfl
    | some i =>
      obtain ⟨hi, e2⟩ := (key i).1 e
      have := hmem i hi e2
      rw [h] at this
      exact absurd this (hp.canon.2 _ (List.getElem_mem hi))
  · obtain ⟨h, e⟩ := (key i).1 hi
    exact ⟨h, Prod.ext e (hmem i h e)⟩

end CLPoly
