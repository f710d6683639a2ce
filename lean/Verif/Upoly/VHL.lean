import Verif.Upoly.VHLat

/-! # `__vanhoeij_recombine` with its lattice: equal to the recombination in which every candidate is a single factor -/

namespace CLPoly
namespace Upoly
open Finset

/-- the scale squared -/
def sc (r : ℕ) : ℚ := 2 ^ (2 * uExp r)

theorem sc_ge (r : ℕ) : 1024 ≤ sc r := by
  have h : 5 ≤ uExp r := by
    unfold uExp
    have h20 : Nat.size 20 = 5 := by decide +kernel
    rw [← h20]
    apply Nat.size_le_size
    split <;> omega
  have : (2 : ℚ) ^ 10 ≤ 2 ^ (2 * uExp r) := pow_le_pow_right₀ (by norm_num) (by omega)
  unfold sc
  linarith

theorem cldPolys_length {m : ℤ} {f : UPoly ℤ} : ∀ {T c : List (UPoly ℤ)}, cldPolys m f T = some c → c.length = T.length
  | [], c, h => by cases h; rfl
  | t :: T, c, h => by
    unfold cldPolys at h
    rw [Option.bind_eq_some_iff] at h
    obtain ⟨x, _, h2⟩ := h
    rw [Option.map_eq_some_iff] at h2
    obtain ⟨l, h3, rfl⟩ := h2
    rw [List.length_cons, List.length_cons, cldPolys_length h3]

theorem latRound_lat {m : ℤ} {jt : ℕ} {f : UPoly ℤ} {T : List (UPoly ℤ)} {M : Mat} {J : ℕ} (hL : Lat (T.length + J) M (sc T.length) (T.length * sc T.length + J)) {b : Mat × ℕ}
    (hb : (if 0 < jt then (cldPolys m f T).map fun cld => buildLoop cld (cldN cld) jt J M else some (M, J)) = some b) :
    b.2 ≤ J + jt ∧ Lat (T.length + b.2) b.1 (sc T.length) (T.length * sc T.length + b.2) := by
  split at hb
  · rw [Option.map_eq_some_iff] at hb
    obtain ⟨cld, h1, h2⟩ := hb
    have hlen := cldPolys_length h1
    obtain ⟨_, a, c⟩ := lat_build cld (cldN cld) (X := sc T.length) (by have := sc_ge T.length; linarith) jt J M (T.length * sc T.length) (by rw [hlen]; exact hL)
    rw [h2] at a c
    rw [hlen] at c
    exact ⟨a, c⟩
  · cases hb
    exact ⟨by simp, hL⟩

theorem normBound_ok {r J : ℕ} (hr : 2 ≤ r) (hJ : J ≤ 7168) : 3 / 4 * sc r + (r * sc r + J) / 4 ≤ (normBound r : ℤ) := by
  have h1 := sc_ge r
  have e : ((normBound r : ℤ) : ℚ) = (r + 1) * sc r := by unfold normBound sc; push_cast; ring
  rw [e]
  have h2 : (2 : ℚ) ≤ r := by exact_mod_cast hr
  have h3 : (J : ℚ) ≤ 7168 := by exact_mod_cast hJ
  nlinarith

theorem latRound_spec {lf : ℕ} {m : ℤ} {jt : ℕ} {f : UPoly ℤ} {T : List (UPoly ℤ)} {M : Mat} {J : ℕ} (hr : 2 ≤ T.length) (hJ : J + jt ≤ 7168)
    (hL : Lat (T.length + J) M (sc T.length) (T.length * sc T.length + J)) {x : Mat × ℕ × List (List ℤ)} (h : latRound lf m jt f T M J = some x) :
    x.2.1 ≤ J + jt ∧ Lat (T.length + x.2.1) x.1 (sc T.length) (T.length * sc T.length + x.2.1) ∧ candidates x.2.2 T.length = (List.range T.length).map fun j => [j] := by
  unfold latRound at h
  rw [Option.bind_eq_some_iff] at h
  obtain ⟨b, hb, h2⟩ := h
  rw [Option.map_eq_some_iff] at h2
  obtain ⟨r, h3, rfl⟩ := h2
  obtain ⟨b1, b2⟩ := latRound_lat hL hb
  obtain ⟨l1, l2, l3⟩ := lat_lll (by omega) b2 (normBound_ok hr (by omega)) h3
  exact ⟨b1, l1, candidates_uni (by omega) (by omega) (by rcases l2 with h | h <;> rw [h] <;> decide) l3⟩

theorem vhLoopL_eq {lf : ℕ} {sort : List (UPoly ℤ) → List (UPoly ℤ)} {m : ℤ} {J0 Jmax : ℕ} (hJ0 : J0 ≤ Jmax) (hJ : 2 * Jmax ≤ 7168) :
    ∀ (fuel n jt : ℕ) (f : UPoly ℤ) (T res : List (UPoly ℤ)) (M : Mat) (J : ℕ) (out : List (UPoly ℤ)), jt ≤ Jmax → (if jt = 0 then J = 0 else J + J0 ≤ jt) →
    Lat (T.length + J) M (sc T.length) (T.length * sc T.length + J) → vhLoopL lf sort m J0 Jmax fuel jt f T res M J = some out →
    vhLoop rowsId sort m J0 Jmax fuel n jt f T res = some out := by
  intro fuel
  induction fuel with
  | zero => intro n jt f T res M J out _ _ _ h; cases h
  | succ fuel ih =>
    intro n jt f T res M J out hjt hjJ hL h
    unfold vhLoopL at h
    unfold vhLoop
    split at h
    · next hT =>
      rw [if_pos hT]
      rw [Option.bind_eq_some_iff] at h
      obtain ⟨x, hx, h⟩ := h
      obtain ⟨x1, x2, x3⟩ := latRound_spec (by omega) (by split at hjJ <;> omega) hL hx
      show ((some _ : Option (List (List ℤ))).bind _) = _
      rw [Option.bind_some, candidates_rowsId _ (by omega)]
      rw [x3, Option.bind_eq_some_iff] at h
      obtain ⟨s, hs, h⟩ := h
      rw [hs, Option.bind_some]
      split at h
      · next hu =>
        rw [if_pos hu]
        refine ih (n + 1) 0 s.1 _ _ _ 0 out (by omega) (by simp) ?_ h
        have := lat_init (vhRemain T s.2.1).length
        simpa [sc] using this
      · next hu =>
        rw [if_neg hu]
        obtain ⟨jt', hj⟩ : ∃ jt', jt' = if jt = 0 then J0 else jt * 2 := ⟨_, rfl⟩
        simp only [← hj] at h ⊢
        by_cases hm : jt' > Jmax
        · rw [if_pos hm] at h ⊢; exact h
        · rw [if_neg hm] at h ⊢
          refine ih (n + 1) jt' f T res _ _ out (by omega) ?_ x2 h
          rw [hj]
          by_cases h0 : jt = 0
          · rw [if_pos h0] at hjJ
            simp only [h0, if_true]
            split <;> omega
          · rw [if_neg h0] at hjJ
            simp only [h0, if_false]
            rw [if_neg (by omega)]
            omega
    · next hT =>
      rw [if_neg hT]
      exact h

/-- `__vanhoeij_recombine` for polynomials of degree at most 7168 -/
theorem vanHoeijL_eq {lf : ℕ} {sort : List (UPoly ℤ) → List (UPoly ℤ)} {m : ℤ} {f : UPoly ℤ} (hd : deg f ≤ 7168) {T out : List (UPoly ℤ)} (h : vanHoeijL lf sort m f T = some out) :
    vanHoeij rowsId sort m f T = some out := by
  unfold vanHoeijL at h
  unfold vanHoeij
  exact vhLoopL_eq (by omega) (by omega) _ 0 0 f T [] _ 0 out (by omega) (by simp) (by have := lat_init T.length; simpa [sc] using this) h

theorem lllFactorizeL_eq {ah lf : ℕ} {sort : List (UPoly ℤ) → List (UPoly ℤ)} {p : Nat} [Fact p.Prime] {f : UPoly ℤ} (hd : deg f ≤ 7168) {factors : List (UPoly (ZMod p))} {out : List (UPoly ℤ)}
    (h : lllFactorizeL ah lf sort p f factors = some out) : lllFactorize ah rowsId rowsId sort p f factors = some out := by
  unfold lllFactorizeL at h
  unfold lllFactorize
  rw [Option.bind_eq_some_iff] at h ⊢
  obtain ⟨a, h1, h⟩ := h
  refine ⟨a, h1, ?_⟩
  rw [Option.bind_eq_some_iff] at h ⊢
  obtain ⟨x, h2, h⟩ := h
  refine ⟨x, h2, ?_⟩
  rw [Option.bind_eq_some_iff] at h ⊢
  obtain ⟨r, h3, h⟩ := h
  refine ⟨r, vanHoeijL_eq hd h3, ?_⟩
  split at h
  · next hc =>
    rw [if_pos hc]
    rw [Option.bind_eq_some_iff] at h ⊢
    obtain ⟨y, h4, h⟩ := h
    exact ⟨y, h4, vanHoeijL_eq hd h⟩
  · next hc => rw [if_neg hc]; exact h

theorem factorSqfPrimL_eq {fuel lf : ℕ} {ps : List ({p : Nat // p.Prime} × List Nat)} {ah : ℕ} {sort : List (UPoly ℤ) → List (UPoly ℤ)} {f : UPoly ℤ} (hd : deg f ≤ 7168) {out : List (UPoly ℤ)}
    (h : factorSqfPrimL fuel lf ps ah sort f = some out) : factorSqfPrim fuel ps ah rowsId rowsId sort f = some out := by
  unfold factorSqfPrimL at h
  unfold factorSqfPrim
  split at h
  · cases h
  · next hf =>
    rw [if_neg hf]
    rw [Option.bind_eq_some_iff] at h ⊢
    obtain ⟨s, h1, h⟩ := h
    refine ⟨s, h1, ?_⟩
    split at h
    · next hc => rw [if_pos hc]; exact h
    · next hc =>
      rw [if_neg hc]
      have := s.prime
      exact lllFactorizeL_eq hd h

theorem rowsId_ne : ∀ n jt f T, rowsId n jt f T ≠ none := by intros; simp [rowsId]

end Upoly
end CLPoly
