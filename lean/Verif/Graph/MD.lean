import Verif.Poly.VarList

/-! # `__polynomial_m_d` (/repo/clpoly/associatedgraph.hh 391–421) -/

namespace CLPoly
open Mono MvPolynomial
namespace Graph

/-- associatedgraph.hh 398–400: `ml[l[i]] = i` for `i = 0, 1, …`; reading an absent key gives 0 (`std::map::operator[]`).  `acc` is the entry so far. -/
def mlGo (v : Var) : List Var → Nat → Nat → Nat
  | [], _, acc => acc
  | x :: l, i, acc => mlGo v l (i + 1) (if x = v then i else acc)

/-- `ml[v]` after the loop 399–400 -/
def mlAt (l : List Var) (v : Var) : Nat := mlGo v l 0 0

/-- associatedgraph.hh 405–410: the smallest position of a variable of the polynomial, `l.size()` when there is none -/
def minPos (l : List Var) (vs : List (Var × Int)) : Nat := vs.foldl (fun m x => if mlAt l x.1 < m then mlAt l x.1 else m) l.length

/-- associatedgraph.hh 411–412: the largest degree -/
def maxDeg (vs : List (Var × Int)) (d : Int) : Int := vs.foldl (fun d x => if x.2 > d then x.2 else d) d

/-- associatedgraph.hh 402–415: the loop over the polynomials (`none`: the write `++md[m]` outside the vector).  Degrees and counters are unbounded. -/
def mdLoop {R : Type _} (vc : Var → Var → Bool) (l : List Var) : List (PV Mono R) → List Nat → Int → Option (List Nat × Int)
  | [], md, d => some (md, d)
  | p :: P, md, d =>
    let vs := polyVariables vc p
    if h : minPos l vs < md.length then mdLoop vc l P (md.set (minPos l vs) (md[minPos l vs] + 1)) (maxDeg vs d) else none

/-- associatedgraph.hh 391–421 `__polynomial_m_d(P, l)` -/
def polynomialMD {R : Type _} (vc : Var → Var → Bool) (P : List (PV Mono R)) (l : List Var) : Option (Nat × Int) :=
  match mdLoop vc l P (List.replicate l.length 0) 0 with
  | none => none
  | some (md, d) => some (md.foldl (fun m i => if i > m then i else m) 0, d)

theorem foldl_le {α : Type*} (f : α → ℕ) (vs : List α) : ∀ m, vs.foldl (fun m x => if f x < m then f x else m) m ≤ m ∧
    (∀ x ∈ vs, vs.foldl (fun m x => if f x < m then f x else m) m ≤ f x) ∧
    (vs.foldl (fun m x => if f x < m then f x else m) m = m ∨ ∃ x ∈ vs, vs.foldl (fun m x => if f x < m then f x else m) m = f x) := by
  induction vs with
  | nil => intro m; exact ⟨le_rfl, by simp, .inl rfl⟩
  | cons a vs ih =>
    intro m
    rw [List.foldl_cons]
    obtain ⟨h1, h2, h3⟩ := ih (if f a < m then f a else m)
    have ha : (if f a < m then f a else m) ≤ f a ∧ (if f a < m then f a else m) ≤ m := by split <;> omega
    refine ⟨h1.trans ha.2, fun x hx => ?_, ?_⟩
    · rcases List.mem_cons.1 hx with rfl | hx
      · exact h1.trans ha.1
      · exact h2 x hx
    · rcases h3 with h3 | ⟨x, hx, h3⟩
      · rw [h3]
        split
        · exact .inr ⟨a, by simp, rfl⟩
        · exact .inl rfl
      · exact .inr ⟨x, List.mem_cons_of_mem _ hx, h3⟩

theorem foldl_ge {α β : Type*} [LinearOrder β] (f : α → β) (vs : List α) : ∀ m, m ≤ vs.foldl (fun m x => if f x > m then f x else m) m ∧
    (∀ x ∈ vs, f x ≤ vs.foldl (fun m x => if f x > m then f x else m) m) ∧
    (vs.foldl (fun m x => if f x > m then f x else m) m = m ∨ ∃ x ∈ vs, vs.foldl (fun m x => if f x > m then f x else m) m = f x) := by
  induction vs with
  | nil => intro m; exact ⟨le_rfl, by simp, .inl rfl⟩
  | cons a vs ih =>
    intro m
    rw [List.foldl_cons]
    obtain ⟨h1, h2, h3⟩ := ih (if f a > m then f a else m)
    have ha : f a ≤ (if f a > m then f a else m) ∧ m ≤ (if f a > m then f a else m) := by
      split
      · rename_i h; exact ⟨le_rfl, le_of_lt h⟩
      · rename_i h; exact ⟨not_lt.1 h, le_rfl⟩
    refine ⟨ha.2.trans h1, fun x hx => ?_, ?_⟩
    · rcases List.mem_cons.1 hx with rfl | hx
      · exact ha.1.trans h1
      · exact h2 x hx
    · rcases h3 with h3 | ⟨x, hx, h3⟩
      · rw [h3]
        split
        · exact .inr ⟨a, by simp, rfl⟩
        · exact .inl rfl
      · exact .inr ⟨x, List.mem_cons_of_mem _ hx, h3⟩

theorem mlGo_spec (v : Var) : ∀ (l : List Var) (i acc : Nat), l.Nodup → mlGo v l i acc = if v ∈ l then i + l.idxOf v else acc := by
  intro l
  induction l with
  | nil => intro i acc _; simp [mlGo]
  | cons x l ih =>
    intro i acc hn
    obtain ⟨h1, h2⟩ := List.nodup_cons.1 hn
    unfold mlGo
    rw [ih _ _ h2]
    by_cases e : x = v
    · subst e
      rw [if_neg h1, if_pos rfl, if_pos (by simp), List.idxOf_cons_self, add_zero]
    · have e' : ¬ v = x := fun h => e h.symm
      rw [if_neg e]
      by_cases hv : v ∈ l
      · rw [if_pos hv, if_pos (by simp [hv]), List.idxOf_cons_ne _ e]
        omega
      · rw [if_neg hv, if_neg (by simp [hv, e'])]

theorem mlAt_eq {l : List Var} (hn : l.Nodup) {v : Var} (hv : v ∈ l) : mlAt l v = l.idxOf v := by
  unfold mlAt
  rw [mlGo_spec v l 0 0 hn, if_pos hv, zero_add]

theorem mdLoop_spec {R : Type*} {vc : Var → Var → Bool} {l : List Var} (P : List (PV Mono R)) : ∀ (md : List Nat) (d : Int), md.length = l.length →
    (∀ p ∈ P, minPos l (polyVariables vc p) < l.length) →
    ∃ md' d', mdLoop vc l P md d = some (md', d') ∧ md'.length = l.length ∧ (∀ i, md'[i]? = md[i]?.map (· + P.countP (fun p => minPos l (polyVariables vc p) = i))) ∧
      d ≤ d' ∧ (∀ p ∈ P, ∀ x ∈ polyVariables vc p, x.2 ≤ d') ∧ (d' = d ∨ ∃ p ∈ P, ∃ x ∈ polyVariables vc p, d' = x.2) := by
  induction P with
  | nil => intro md d h _; exact ⟨md, d, rfl, h, by simp, le_rfl, by simp, .inl rfl⟩
  | cons p P ih =>
    intro md d h hP
    have hp := hP p (by simp)
    obtain ⟨md', d', e, h1, h2, h3, h4, h5⟩ := ih (md.set (minPos l (polyVariables vc p)) (md[minPos l (polyVariables vc p)]'(by omega) + 1)) (maxDeg (polyVariables vc p) d)
      (by simpa using h) (fun q hq => hP q (List.mem_cons_of_mem _ hq))
    obtain ⟨k1, k2, k3⟩ := foldl_ge (fun x : Var × Int => x.2) (polyVariables vc p) d
    refine ⟨md', d', ?_, h1, fun i => ?_, k1.trans h3, fun q hq x hx => ?_, ?_⟩
    · unfold mdLoop
      dsimp only
      rw [dif_pos (by omega), e]
    · rw [h2, List.countP_cons, List.getElem?_set]
      by_cases hi : minPos l (polyVariables vc p) = i
      · subst hi
        rw [if_pos rfl, if_pos (by omega), List.getElem?_eq_getElem (by omega)]
        simp
        omega
      · rw [if_neg hi]
        simp [hi]
    · rcases List.mem_cons.1 hq with rfl | hq
      · exact (k2 x hx).trans h3
      · exact h4 q hq x hx
    · rcases h5 with h5 | ⟨q, hq, x, hx, h5⟩
      · rcases k3 with k3 | ⟨x, hx, k3⟩
        · exact .inl (h5.trans k3)
        · exact .inr ⟨p, by simp, x, hx, h5.trans k3⟩
      · exact .inr ⟨q, List.mem_cons_of_mem _ hq, x, hx, h5⟩

/-- `v` is the first variable of the list `l` that occurs in `f` -/
def IsFirst {R : Type*} [CommSemiring R] (l : List Var) (f : MvPolynomial Var R) (v : Var) : Prop := v ∈ f.vars ∧ ∀ w ∈ l, l.idxOf w < l.idxOf v → w ∉ f.vars

theorem minPos_spec {R : Type*} [CommRing R] [DecidableEq R] {vc : Var → Var → Bool} {mc : Mono → Mono → Bool} (M : MonoOrd vc mc) {l : List Var} (hn : l.Nodup) {p : PV Mono R}
    (hp : PolyOK vc mc p) (hv : ∀ v ∈ (val p).vars, v ∈ l) (h0 : (val p).vars.Nonempty) :
    minPos l (polyVariables vc p) < l.length ∧ ∀ v ∈ l, (minPos l (polyVariables vc p) = l.idxOf v ↔ IsFirst l (val p) v) := by
  obtain ⟨_, s2, _⟩ := variables_spec M hp
  obtain ⟨h1, h2, h3⟩ := foldl_le (fun x : Var × Int => mlAt l x.1) (polyVariables vc p) l.length
  have key : ∀ w ∈ (val p).vars, minPos l (polyVariables vc p) ≤ l.idxOf w := by
    intro w hw
    obtain ⟨x, hx, rfl⟩ := (s2 w).2 hw
    rw [← mlAt_eq hn (hv _ hw)]
    exact h2 x hx
  have hlt : minPos l (polyVariables vc p) < l.length := by
    obtain ⟨w, hw⟩ := h0
    exact (key w hw).trans_lt (List.idxOf_lt_length_iff.2 (hv w hw))
  obtain ⟨x, hx, ex⟩ : ∃ x ∈ polyVariables vc p, minPos l (polyVariables vc p) = mlAt l x.1 := by
    rcases h3 with h3 | h3
    · exact absurd (show minPos l (polyVariables vc p) = l.length from h3) hlt.ne
    · exact h3
  have hxv := (s2 x.1).1 ⟨x, hx, rfl⟩
  rw [mlAt_eq hn (hv _ hxv)] at ex
  refine ⟨hlt, fun v hvl => ⟨fun e => ?_, fun ⟨e1, e2⟩ => ?_⟩⟩
  · have : x.1 = v := (List.idxOf_inj (hv _ hxv)).1 (ex.symm.trans e)
    subst this
    refine ⟨hxv, fun w hw hlt hwv => ?_⟩
    have := key w hwv
    omega
  · refine le_antisymm (key v e1) ?_
    rw [ex]
    by_contra hc
    exact e2 x.1 (hv _ hxv) (by omega) hxv

open Classical in
theorem polynomialMD_spec {R : Type*} [CommRing R] {vc : Var → Var → Bool} {mc : Mono → Mono → Bool} (M : MonoOrd vc mc) {l : List Var} (hn : l.Nodup) {P : List (PV Mono R)}
    (hP : ∀ p ∈ P, PolyOK vc mc p) (hv : ∀ p ∈ P, ∀ v ∈ (val p).vars, v ∈ l) (h0 : ∀ p ∈ P, (val p).vars.Nonempty) :
    ∃ m d, polynomialMD vc P l = some (m, d) ∧
      (∀ v ∈ l, P.countP (fun p => IsFirst l (val p) v) ≤ m) ∧ (m = 0 ∨ ∃ v ∈ l, m = P.countP (fun p => IsFirst l (val p) v)) ∧
      (∀ p ∈ P, ∀ v, ((val p).degreeOf v : ℤ) ≤ d) ∧ (d = 0 ∨ ∃ p ∈ P, ∃ v, d = (val p).degreeOf v) := by
  obtain ⟨md, d, e, h1, h2, h3, h4, h5⟩ := mdLoop_spec (vc := vc) (l := l) P (List.replicate l.length 0) 0 (by simp)
    (fun p hp => (minPos_spec M hn (hP p hp) (hv p hp) (h0 p hp)).1)
  have cnt : ∀ v ∈ l, md[l.idxOf v]? = some (P.countP (fun p => IsFirst l (val p) v)) := by
    intro v hvl
    rw [h2, List.getElem?_replicate, if_pos (List.idxOf_lt_length_iff.2 hvl), Option.map_some, zero_add]
    congr 1
    refine List.countP_congr fun p hp => ?_
    simpa using (minPos_spec M hn (hP p hp) (hv p hp) (h0 p hp)).2 v hvl
  obtain ⟨_, k2, k3⟩ := foldl_ge (fun i : ℕ => i) md 0
  refine ⟨_, d, by unfold polynomialMD; rw [e], fun v hvl => ?_, ?_, fun p hp v => ?_, ?_⟩
  · exact k2 _ (List.mem_of_getElem? (cnt v hvl))
  · rcases k3 with k3 | ⟨i, hi, k3⟩
    · exact .inl k3
    · obtain ⟨j, hj, rfl⟩ := List.getElem_of_mem hi
      have hj' : j < l.length := by omega
      refine .inr ⟨l[j], List.getElem_mem hj', k3.trans ?_⟩
      have := cnt l[j] (List.getElem_mem hj')
      rw [hn.idxOf_getElem _ hj', List.getElem?_eq_getElem hj] at this
      exact Option.some.inj this
  · obtain ⟨_, s2, s3⟩ := variables_spec M (hP p hp)
    by_cases hvp : v ∈ (val p).vars
    · obtain ⟨x, hx, rfl⟩ := (s2 v).2 hvp
      rw [← s3 x hx]
      exact h4 p hp x hx
    · rw [show (val p).degreeOf v = 0 from by_contra fun h => hvp (mem_vars_iff_degreeOf_ne_zero.2 h)]
      exact_mod_cast h3
  · rcases h5 with h5 | ⟨p, hp, x, hx, h5⟩
    · exact .inl h5
    · exact .inr ⟨p, hp, x.1, h5.trans ((variables_spec M (hP p hp)).2.2 x hx)⟩

end Graph
end CLPoly
