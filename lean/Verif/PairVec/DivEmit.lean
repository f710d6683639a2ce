import Verif.PairVec.Div

/-! # The part of the remainder that does not depend on what is emitted -/

namespace CLPoly
section
variable {K R : Type _} [DecidableEq K] [Inhabited K] [DecidableEq R] [CommRing R]
variable {mul : K → K → K} {divx : K → K → Option K} {divc : R → R → R × R} {emit : R → R → R} {comp : K → K → Bool} {v2 : PV K R}

local instance instInhEmit : Inhabited R := ⟨0⟩

/-- terms whose monomial is not divisible by the leading monomial of the divisor -/
def ndiv (divx : K → K → Option K) (v2 : PV K R) (r : PV K R) : PV K R := r.filter fun x => (divx x.1 (at_ v2 0).1).isNone

theorem ndiv_append (r s : PV K R) : ndiv divx v2 (r ++ s) = ndiv divx v2 r ++ ndiv divx v2 s := List.filter_append ..

theorem ndiv_some {m m1 : K} {c : R} (h : divx m (at_ v2 0).1 = some m1) : ndiv divx v2 [(m, c)] = [] := by
  unfold ndiv; rw [List.filter_cons_of_neg (by simp only [h]; simp)]; rfl

theorem divLoop_emit_ndiv (emit' : R → R → R) (fuel : Nat) : ∀ st st' : DivSt K R,
    st.Q = st'.Q → ndiv divx v2 st.Rem = ndiv divx v2 st'.Rem → st.rest = st'.rest → st.heap = st'.heap →
    st.size = st'.size → st.pos = st'.pos → st.resetH = st'.resetH →
    (divLoop mul divx divc emit comp v2 fuel st).map (fun x => (x.1, ndiv divx v2 x.2)) =
    (divLoop mul divx divc emit' comp v2 fuel st').map (fun x => (x.1, ndiv divx v2 x.2)) := by
  induction fuel with
  | zero => intros; rfl
  | succ fuel ih =>
    intro st st' a1 a2 a3 a4 a5 a6 a7
    rw [divLoop, divLoop, ← a3, ← a5]
    by_cases hc : st.size ≠ 0 ∨ st.rest ≠ []
    · rw [if_pos hc, if_pos hc]
      have hst : (divStep mul divx divc emit' comp v2 st')
          = { divStep mul divx divc emit' comp v2 { st with Rem := st'.Rem } with } := by
        cases st; cases st'; simp_all
      have key : ∀ st : DivSt K R, ∀ Rem', ndiv divx v2 st.Rem = ndiv divx v2 Rem' →
          let s1 := divStep mul divx divc emit comp v2 st
          let s2 := divStep mul divx divc emit' comp v2 { st with Rem := Rem' }
          s1.Q = s2.Q ∧ ndiv divx v2 s1.Rem = ndiv divx v2 s2.Rem ∧ s1.rest = s2.rest ∧ s1.heap = s2.heap ∧
          s1.size = s2.size ∧ s1.pos = s2.pos ∧ s1.resetH = s2.resetH := by
        intro st Rem' hR
        unfold divStep
        simp only
        split
        · split
          · rename_i hd
            split
            · split <;> simp only [hR, ndiv_some hd, ndiv_append, and_self]
            · split <;> simp only [hR, ndiv_some hd, ndiv_append, and_self]
          · simp only [hR, ndiv_append, and_self]
        · simp only [hR, and_self]
      obtain ⟨b1, b2, b3, b4, b5, b6, b7⟩ := key st st'.Rem a2
      rw [hst]
      exact ih _ _ b1 b2 b3 b4 b5 b6 b7
    · rw [if_neg hc, if_neg hc]
      simp [a1, a2]

/-- if no term of the remainder is divisible, the remainder does not depend on what is emitted -/
theorem heapDiv_emit_eq (emit' : R → R → R) {fuel : Nat} {v1 Q R' : PV K R} (h : heapDiv mul divx divc emit comp fuel v1 v2 = some (Q, R'))
    (hn : ∀ x ∈ R', divx x.1 (at_ v2 0).1 = none) : heapDiv mul divx divc emit' comp fuel v1 v2 = some (Q, R') := by
  have e1 := divLoop_emit (mul := mul) (divx := divx) (divc := divc) (comp := comp) (v2 := v2) (emit := emit) emit' fuel
    { Q := [], Rem := [], rest := v1, heap := fun _ => [], size := 0, pos := fun _ => 0, resetH := v2.length - 1 } _ rfl rfl rfl rfl rfl rfl rfl
  have e2 := divLoop_emit_ndiv (mul := mul) (divx := divx) (divc := divc) (comp := comp) (v2 := v2) (emit := emit) emit' fuel
    { Q := [], Rem := [], rest := v1, heap := fun _ => [], size := 0, pos := fun _ => 0, resetH := v2.length - 1 } _ rfl rfl rfl rfl rfl rfl rfl
  unfold heapDiv at h ⊢
  rw [h] at e1 e2
  cases hX : divLoop mul divx divc emit' comp v2 fuel _ with
  | none => rw [hX] at e1; simp at e1
  | some Z =>
    rw [hX] at e1 e2
    simp only [Option.map_some, Option.some.injEq, Prod.mk.injEq] at e1 e2
    have hn' : ∀ x ∈ Z.2, divx x.1 (at_ v2 0).1 = none := by
      intro x hx
      have : x.1 ∈ R'.map Prod.fst := by rw [e1.2]; exact List.mem_map.2 ⟨x, hx, rfl⟩
      obtain ⟨y, hy, e⟩ := List.mem_map.1 this
      rw [← e]; exact hn y hy
    have h1 : ndiv divx v2 R' = R' := List.filter_eq_self.2 fun x hx => by rw [hn x hx]; rfl
    have h2 : ndiv divx v2 Z.2 = Z.2 := List.filter_eq_self.2 fun x hx => by rw [hn' x hx]; rfl
    rw [h1, h2] at e2
    rw [e2.1, e2.2]

end
end CLPoly
