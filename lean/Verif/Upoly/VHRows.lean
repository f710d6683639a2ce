import Verif.Upoly.VHTotal

/-! # A run with the lattice is a run of the recombination with some rows -/

namespace CLPoly
namespace Upoly
open Polynomial

/-- only the rounds from `n` on matter -/
theorem vhLoop_congr {rows rows' : Rows} {sort : List (UPoly ℤ) → List (UPoly ℤ)} {m : ℤ} {J0 Jmax : ℕ} : ∀ (fuel n jt : ℕ) (f : UPoly ℤ) (T res : List (UPoly ℤ)), (∀ k, n ≤ k → rows k = rows' k) →
    vhLoop rows sort m J0 Jmax fuel n jt f T res = vhLoop rows' sort m J0 Jmax fuel n jt f T res := by
  intro fuel
  induction fuel with
  | zero => intros; rfl
  | succ fuel ih =>
    intro n jt f T res h
    unfold vhLoop
    rw [h n le_rfl]
    have ih' := fun jt f T res => ih (n + 1) jt f T res fun k hk => h k (by omega)
    simp only [ih']

theorem vhLoopL_rows {lf : ℕ} {sort : List (UPoly ℤ) → List (UPoly ℤ)} {m : ℤ} {J0 Jmax : ℕ} :
    ∀ (fuel n jt : ℕ) (f : UPoly ℤ) (T res : List (UPoly ℤ)) (M : Mat) (J : ℕ) (out : List (UPoly ℤ)), vhLoopL lf sort m J0 Jmax fuel jt f T res M J = some out →
    ∃ rows : Rows, (∀ n jt f T, rows n jt f T ≠ none) ∧ vhLoop rows sort m J0 Jmax fuel n jt f T res = some out := by
  intro fuel
  induction fuel with
  | zero => intro n jt f T res M J out h; cases h
  | succ fuel ih =>
    intro n jt f T res M J out h
    unfold vhLoopL at h
    split at h
    · next hT =>
      rw [Option.bind_eq_some_iff] at h
      obtain ⟨x, _, h⟩ := h
      -- rows of this round, then those of the rest
      have key : ∀ (rows : Rows) (jt' : ℕ) (f' : UPoly ℤ) (T' res' : List (UPoly ℤ)), vhLoop rows sort m J0 Jmax fuel (n + 1) jt' f' T' res' =
          vhLoop (fun k a b c => if k = n then some x.2.2 else rows k a b c) sort m J0 Jmax fuel (n + 1) jt' f' T' res' := fun rows jt' f' T' res' =>
        vhLoop_congr fuel (n + 1) jt' f' T' res' fun k hk => by funext a b c; rw [if_neg (by omega)]
      have ne : ∀ rows : Rows, (∀ n jt f T, rows n jt f T ≠ none) → ∀ k a b c, (fun k a b c => if k = n then some x.2.2 else rows k a b c : Rows) k a b c ≠ none := fun rows hr k a b c => by
        dsimp only
        split
        · simp
        · exact hr k a b c
      have e : ∀ rows : Rows, vhLoop (fun k a b c => if k = n then some x.2.2 else rows k a b c) sort m J0 Jmax (fuel + 1) n jt f T res =
          (vhRound m T (candidates x.2.2 T.length) (f, [], res)).bind fun s =>
          if s.2.1 ≠ [] then vhLoop rows sort m J0 Jmax fuel (n + 1) 0 s.1 (vhRemain T s.2.1) s.2.2
          else
            let jt' := if jt = 0 then J0 else jt * 2
            if jt' > Jmax then (zassenhaus sort m f T).map fun z => res ++ z
            else vhLoop rows sort m J0 Jmax fuel (n + 1) jt' f T res := fun rows => by
        rw [vhLoop, if_pos hT, if_pos rfl, Option.bind_some]
        simp only [key rows]
      rw [Option.bind_eq_some_iff] at h
      obtain ⟨s, hs, h⟩ := h
      split at h
      · next hu =>
        obtain ⟨rows, r1, r2⟩ := ih (n + 1) _ _ _ _ _ _ _ h
        exact ⟨_, ne rows r1, by rw [e, hs, Option.bind_some, if_pos hu]; exact r2⟩
      · next hu =>
        obtain ⟨jt', hj⟩ : ∃ jt', jt' = if jt = 0 then J0 else jt * 2 := ⟨_, rfl⟩
        simp only [← hj] at h e
        by_cases hx : jt' > Jmax
        · rw [if_pos hx] at h
          exact ⟨_, ne (fun _ _ _ _ => some []) (by simp), by rw [e, hs, Option.bind_some, if_neg hu, if_pos hx]; exact h⟩
        · rw [if_neg hx] at h
          obtain ⟨rows, r1, r2⟩ := ih (n + 1) _ _ _ _ _ _ _ h
          exact ⟨_, ne rows r1, by rw [e, hs, Option.bind_some, if_neg hu, if_neg hx]; exact r2⟩
    · next hT => exact ⟨fun _ _ _ _ => some [], by simp, by rw [vhLoop, if_neg hT]; exact h⟩

theorem vanHoeijL_rows {lf : ℕ} {sort : List (UPoly ℤ) → List (UPoly ℤ)} {m : ℤ} {f : UPoly ℤ} {T out : List (UPoly ℤ)} (h : vanHoeijL lf sort m f T = some out) :
    ∃ rows : Rows, (∀ n jt f T, rows n jt f T ≠ none) ∧ vanHoeij rows sort m f T = some out := vhLoopL_rows _ 0 _ _ _ _ _ _ _ h

theorem lllFactorizeL_rows {ah lf : ℕ} {sort : List (UPoly ℤ) → List (UPoly ℤ)} {p : Nat} [Fact p.Prime] {f : UPoly ℤ} {factors : List (UPoly (ZMod p))} {out : List (UPoly ℤ)}
    (h : lllFactorizeL ah lf sort p f factors = some out) :
    ∃ rows1 rows2 : Rows, (∀ n jt f T, rows1 n jt f T ≠ none) ∧ (∀ n jt f T, rows2 n jt f T ≠ none) ∧ lllFactorize ah rows1 rows2 sort p f factors = some out := by
  unfold lllFactorizeL at h
  rw [Option.bind_eq_some_iff] at h
  obtain ⟨a, h1, h⟩ := h
  rw [Option.bind_eq_some_iff] at h
  obtain ⟨x, h2, h⟩ := h
  rw [Option.bind_eq_some_iff] at h
  obtain ⟨r, h3, h⟩ := h
  obtain ⟨rows1, r1, r2⟩ := vanHoeijL_rows h3
  split at h
  · next hc =>
    rw [Option.bind_eq_some_iff] at h
    obtain ⟨y, h4, h⟩ := h
    obtain ⟨rows2, s1, s2⟩ := vanHoeijL_rows h
    refine ⟨rows1, rows2, r1, s1, ?_⟩
    unfold lllFactorize
    rw [h1, Option.bind_some, h2, Option.bind_some, r2, Option.bind_some, if_pos hc, h4, Option.bind_some, s2]
  · next hc =>
    refine ⟨rows1, rows1, r1, r1, ?_⟩
    unfold lllFactorize
    rw [h1, Option.bind_some, h2, Option.bind_some, r2, Option.bind_some, if_neg hc, h]

theorem factorSqfPrimL_rows {fuel lf : ℕ} {ps : List ({p : Nat // p.Prime} × List Nat)} {ah : ℕ} {sort : List (UPoly ℤ) → List (UPoly ℤ)} {f : UPoly ℤ} {out : List (UPoly ℤ)}
    (h : factorSqfPrimL fuel lf ps ah sort f = some out) :
    ∃ rows1 rows2 : Rows, (∀ n jt f T, rows1 n jt f T ≠ none) ∧ (∀ n jt f T, rows2 n jt f T ≠ none) ∧ factorSqfPrim fuel ps ah rows1 rows2 sort f = some out := by
  unfold factorSqfPrimL at h
  split at h
  · cases h
  · next hf =>
    rw [Option.bind_eq_some_iff] at h
    obtain ⟨s, h1, h⟩ := h
    split at h
    · next hc =>
      refine ⟨rowsId, rowsId, rowsId_ne, rowsId_ne, ?_⟩
      unfold factorSqfPrim
      rw [if_neg hf, h1, Option.bind_some, if_pos hc, h]
    · next hc =>
      have := s.prime
      obtain ⟨rows1, rows2, a, b, c⟩ := lllFactorizeL_rows h
      refine ⟨rows1, rows2, a, b, ?_⟩
      unfold factorSqfPrim
      rw [if_neg hf, h1, Option.bind_some, if_neg hc]
      exact c

/-- `__factor_squarefree_primitive_ZZ` with the lattice: product and primitivity -/
theorem factorSqfPrimL_spec {fuel lf : Nat} {ps : List ({p : Nat // p.Prime} × List Nat)} (hps : ∀ x ∈ ps, x.1.1 < W ∧ ∀ c ∈ x.2, c < x.1.1) {ah : Nat} {sort : List (UPoly ℤ) → List (UPoly ℤ)}
    (hsort : ∀ l, (sort l).Perm l) {f : UPoly ℤ} {F : ℤ[X]} (hf : Is f F) (pF : F.IsPrimitive) (hd : 2 ≤ F.natDegree) (lF : F.natDegree + 1 < W) {res : List (UPoly ℤ)}
    (h : factorSqfPrimL fuel lf ps ah sort f = some res) : ∃ Rs, List.Forall₂ Is res Rs ∧ Associated Rs.prod F ∧ ∀ R ∈ Rs, R.IsPrimitive ∧ 0 < R.natDegree := by
  obtain ⟨rows1, rows2, r1, r2, r3⟩ := factorSqfPrimL_rows h
  obtain ⟨_, h2⟩ := factorSqfPrim_spec (fuel := fuel) (ah := ah) hps r1 r2 hsort hf pF hd lF
  obtain ⟨Rs, a, b, c, _⟩ := h2 res r3
  exact ⟨Rs, a, b, c⟩

end Upoly
end CLPoly
