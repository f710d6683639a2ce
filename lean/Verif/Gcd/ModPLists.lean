import Verif.Gcd.Interp
import Verif.Gcd.Lists
import Verif.Poly.PremSpec

/-! # Lists of the modular gcd: collected values, interpolated terms, Euclid's algorithm -/

namespace CLPoly
namespace Mgcd
open Mono MvPolynomial
open Dense (IsGcd)

variable {vc : Var → Var → Bool}

theorem E_append (a b : List (Var × Int)) (v : Var) : E (a ++ b) v = E a v + E b v := by
  induction a with
  | nil => rw [List.nil_append, E_nil, zero_add]
  | cons x a ih => rw [List.cons_append, E_cons, E_cons, ih, add_assoc]

section
variable {R : Type*} [CommRing R]

theorem degreeOf_le_of_list (M : MonoOrd vc (lexGt vc)) {p : PV Mono R} (hp : LP vc p) {w : Var} {b : ℕ} (h : ∀ t ∈ p, E t.1.data w ≤ b) : (val p).degreeOf w ≤ b := by
  have := hp.degreeOf_lt M w (m := b + 1) (by omega) fun t ht => by have := h t ht; push_cast; omega
  omega

/-- a degree bound 0 excludes the variable -/
theorem pos_of_mem (ho : VarOrd vc) {m : Mono} (hm : Valid vc m) {x : Var × Int} (hx : x ∈ m.data) : 0 < E m.data x.1 := by
  rw [E_mem ho hm.sorted hx]; exact hm.pos x hx

end

section
variable {p : ℕ} [Fact p.Prime]

/-- the collected values at `n` points -/
structure VOK (vc : Var → Var → Bool) (n : ℕ) (B : Var → ℕ) (v0 : Var) (d : Int) (l : List (Mono × List (ZMod p))) : Prop where
  valid : ∀ e ∈ l, Valid vc e.1
  sorted : l.Pairwise fun a b => lexGt vc a.1 b.1 = true
  len : ∀ e ∈ l, e.2.length = n
  nz : ∀ e ∈ l, ∃ k < n, e.2.getD k 0 ≠ 0
  dom : ∀ e ∈ l, ∀ w, E e.1.data w ≤ B w
  le : ∀ e ∈ l, E e.1.data v0 ≤ d
  top : ∃ e ∈ l, E e.1.data v0 = d

theorem vok_first {B : Var → ℕ} {v0 : Var} {d : Int} {P : PV Mono (ZMod p)} (hP : LP vc P) (dom : ∀ t ∈ P, ∀ w, E t.1.data w ≤ B w) (le : ∀ t ∈ P, E t.1.data v0 ≤ d)
    (top : ∃ t ∈ P, E t.1.data v0 = d) : VOK vc 1 B v0 d (P.map fun t => (t.1, [t.2])) := by
  refine ⟨?_, ?_, ?_, ?_, ?_, ?_, ?_⟩
  · intro e he; obtain ⟨t, ht, rfl⟩ := List.mem_map.1 he; exact hP.monos t ht
  · rw [List.pairwise_map]; exact hP.canon.1
  · intro e he; obtain ⟨t, ht, rfl⟩ := List.mem_map.1 he; rfl
  · intro e he; obtain ⟨t, ht, rfl⟩ := List.mem_map.1 he; exact ⟨0, by omega, hP.canon.2 t ht⟩
  · intro e he; obtain ⟨t, ht, rfl⟩ := List.mem_map.1 he; exact dom t ht
  · intro e he; obtain ⟨t, ht, rfl⟩ := List.mem_map.1 he; exact le t ht
  · obtain ⟨t, ht, e⟩ := top; exact ⟨_, List.mem_map.2 ⟨t, ht, rfl⟩, e⟩

theorem mem_mergePts (n : ℕ) (l : List (Mono × List (ZMod p))) (m : PV Mono (ZMod p)) : ∀ e ∈ mergePts p vc n l m,
    (∃ a ∈ l, e.1 = a.1 ∧ ∃ c, e.2 = a.2 ++ [c]) ∨ ∃ b ∈ m, e.1 = b.1 ∧ e.2 = List.replicate n 0 ++ [b.2] := by
  induction l, m using mergePts.induct p vc with
  | case1 => intro e he; rw [mergePts] at he; simp at he
  | case2 a l ih =>
    intro e he
    rw [mergePts, List.mem_cons] at he
    rcases he with rfl | he
    · exact .inl ⟨a, by simp, rfl, 0, rfl⟩
    · rcases ih e he with ⟨a', h1, h2⟩ | ⟨b, h1, _⟩
      · exact .inl ⟨a', by simp [h1], h2⟩
      · simp at h1
  | case3 b m ih =>
    intro e he
    rw [mergePts, List.mem_cons] at he
    rcases he with rfl | he
    · exact .inr ⟨b, by simp, rfl, rfl⟩
    · rcases ih e he with ⟨a', h1, h2⟩ | ⟨b', h1, h2⟩
      · simp at h1
      · exact .inr ⟨b', by simp [h1], h2⟩
  | case4 a l b m hc ih =>
    intro e he
    rw [mergePts, if_pos hc, List.mem_cons] at he
    rcases he with rfl | he
    · exact .inr ⟨b, by simp, rfl, rfl⟩
    · rcases ih e he with h | ⟨b', h1, h2⟩
      · exact .inl h
      · exact .inr ⟨b', by simp [h1], h2⟩
  | case5 a l b m hc hc2 ih =>
    intro e he
    rw [mergePts, if_neg hc, if_pos hc2, List.mem_cons] at he
    rcases he with rfl | he
    · exact .inl ⟨a, by simp, rfl, b.2, rfl⟩
    · rcases ih e he with ⟨a', h1, h2⟩ | ⟨b', h1, h2⟩
      · exact .inl ⟨a', by simp [h1], h2⟩
      · exact .inr ⟨b', by simp [h1], h2⟩
  | case6 a l b m hc hc2 ih =>
    intro e he
    rw [mergePts, if_neg hc, if_neg hc2, List.mem_cons] at he
    rcases he with rfl | he
    · exact .inl ⟨a, by simp, rfl, 0, rfl⟩
    · rcases ih e he with ⟨a', h1, h2⟩ | ⟨b', h1, h2⟩
      · exact .inl ⟨a', by simp [h1], h2⟩
      · exact .inr ⟨b', h1, h2⟩

theorem mergePts_mem (n : ℕ) (l : List (Mono × List (ZMod p))) (m : PV Mono (ZMod p)) : ∀ a ∈ l, ∃ e ∈ mergePts p vc n l m, e.1 = a.1 := by
  induction l, m using mergePts.induct p vc with
  | case1 => intro a ha; simp at ha
  | case2 a l ih =>
    intro a' ha
    rw [mergePts]
    rcases List.mem_cons.1 ha with rfl | ha
    · exact ⟨_, List.mem_cons_self, rfl⟩
    · obtain ⟨e, h1, h2⟩ := ih a' ha; exact ⟨e, by simp [h1], h2⟩
  | case3 b m ih => intro a ha; simp at ha
  | case4 a l b m hc ih =>
    intro a' ha
    rw [mergePts, if_pos hc]
    obtain ⟨e, h1, h2⟩ := ih a' ha; exact ⟨e, by simp [h1], h2⟩
  | case5 a l b m hc hc2 ih =>
    intro a' ha
    rw [mergePts, if_neg hc, if_pos hc2]
    rcases List.mem_cons.1 ha with rfl | ha
    · exact ⟨_, List.mem_cons_self, rfl⟩
    · obtain ⟨e, h1, h2⟩ := ih a' ha; exact ⟨e, by simp [h1], h2⟩
  | case6 a l b m hc hc2 ih =>
    intro a' ha
    rw [mergePts, if_neg hc, if_neg hc2]
    rcases List.mem_cons.1 ha with rfl | ha
    · exact ⟨_, List.mem_cons_self, rfl⟩
    · obtain ⟨e, h1, h2⟩ := ih a' ha; exact ⟨e, by simp [h1], h2⟩

theorem mergePts_sorted (M : MonoOrd vc (lexGt vc)) (n : ℕ) (l : List (Mono × List (ZMod p))) (m : PV Mono (ZMod p)) :
    (∀ e ∈ l, Valid vc e.1) → (∀ e ∈ m, Valid vc e.1) → (l.Pairwise fun a b => lexGt vc a.1 b.1 = true) → (m.Pairwise fun a b => lexGt vc a.1 b.1 = true) →
    (mergePts p vc n l m).Pairwise fun a b => lexGt vc a.1 b.1 = true := by
  have keys : ∀ (l : List (Mono × List (ZMod p))) (m : PV Mono (ZMod p)) (x : Mono), (∀ e ∈ l, lexGt vc x e.1 = true) → (∀ e ∈ m, lexGt vc x e.1 = true) →
      ∀ e ∈ mergePts p vc n l m, lexGt vc x e.1 = true := by
    intro l m x h1 h2 e he
    rcases mem_mergePts n l m e he with ⟨a, ha, e1, _⟩ | ⟨b, hb, e1, _⟩
    · rw [e1]; exact h1 a ha
    · rw [e1]; exact h2 b hb
  induction l, m using mergePts.induct p vc with
  | case1 => intros; rw [mergePts]; exact .nil
  | case2 a l ih =>
    intro v1 v2 s1 s2
    rw [mergePts]
    rw [List.pairwise_cons] at s1
    exact List.pairwise_cons.2 ⟨keys _ _ _ s1.1 (by simp), ih (fun e he => v1 e (by simp [he])) v2 s1.2 s2⟩
  | case3 b m ih =>
    intro v1 v2 s1 s2
    rw [mergePts]
    rw [List.pairwise_cons] at s2
    exact List.pairwise_cons.2 ⟨keys _ _ _ (by simp) s2.1, ih v1 (fun e he => v2 e (by simp [he])) s1 s2.2⟩
  | case4 a l b m hc ih =>
    intro v1 v2 s1 s2
    rw [mergePts, if_pos hc]
    have s2' := List.pairwise_cons.1 s2
    have s1' := List.pairwise_cons.1 s1
    refine List.pairwise_cons.2 ⟨keys _ _ _ (fun e he => ?_) s2'.1, ih v1 (fun e he => v2 e (by simp [he])) s1 s2'.2⟩
    rcases List.mem_cons.1 he with rfl | he
    · exact hc
    · exact M.lawful.trans _ _ _ (v2 b (by simp)) (v1 a (by simp)) (v1 e (by simp [he])) hc (s1'.1 e he)
  | case5 a l b m hc hc2 ih =>
    intro v1 v2 s1 s2
    rw [mergePts, if_neg hc, if_pos hc2]
    have s2' := List.pairwise_cons.1 s2
    have s1' := List.pairwise_cons.1 s1
    exact List.pairwise_cons.2 ⟨keys _ _ _ s1'.1 (fun e he => by rw [← hc2]; exact s2'.1 e he), ih (fun e he => v1 e (by simp [he])) (fun e he => v2 e (by simp [he])) s1'.2 s2'.2⟩
  | case6 a l b m hc hc2 ih =>
    intro v1 v2 s1 s2
    rw [mergePts, if_neg hc, if_neg hc2]
    have s2' := List.pairwise_cons.1 s2
    have s1' := List.pairwise_cons.1 s1
    have hab : lexGt vc a.1 b.1 = true := by
      rcases M.lawful.total _ _ (v1 a (by simp)) (v2 b (by simp)) (fun e => hc2 e.symm) with h | h
      · exact h
      · exact absurd h hc
    refine List.pairwise_cons.2 ⟨keys _ _ _ s1'.1 (fun e he => ?_), ih (fun e he => v1 e (by simp [he])) v2 s1'.2 s2⟩
    rcases List.mem_cons.1 he with rfl | he
    · exact hab
    · exact M.lawful.trans _ _ _ (v1 a (by simp)) (v2 b (by simp)) (v2 e (by simp [he])) hab (s2'.1 e he)

theorem vok_merge (M : MonoOrd vc (lexGt vc)) {n : ℕ} {B : Var → ℕ} {v0 : Var} {d : Int} {l : List (Mono × List (ZMod p))} {P : PV Mono (ZMod p)} (hl : VOK vc n B v0 d l)
    (hP : LP vc P) (dom : ∀ t ∈ P, ∀ w, E t.1.data w ≤ B w) (le : ∀ t ∈ P, E t.1.data v0 ≤ d) : VOK vc (n + 1) B v0 d (mergePts p vc n l P) := by
  have mem := mem_mergePts (vc := vc) n l P
  refine ⟨fun e he => ?_, mergePts_sorted M n l P hl.valid hP.monos hl.sorted hP.canon.1, fun e he => ?_, fun e he => ?_, fun e he => ?_, fun e he => ?_, ?_⟩
  · rcases mem e he with ⟨a, ha, e1, _⟩ | ⟨b, hb, e1, _⟩
    · rw [e1]; exact hl.valid a ha
    · rw [e1]; exact hP.monos b hb
  · rcases mem e he with ⟨a, ha, _, c, e2⟩ | ⟨b, hb, _, e2⟩
    · rw [e2]; simp [hl.len a ha]
    · rw [e2]; simp
  · rcases mem e he with ⟨a, ha, _, c, e2⟩ | ⟨b, hb, _, e2⟩
    · obtain ⟨k, h1, h2⟩ := hl.nz a ha
      refine ⟨k, by omega, ?_⟩
      rw [e2, List.getD, List.getElem?_append_left (by rw [hl.len a ha]; exact h1)]
      exact h2
    · refine ⟨n, by omega, ?_⟩
      rw [e2, List.getD, List.getElem?_append_right (by simp)]
      simpa using hP.canon.2 b hb
  · rcases mem e he with ⟨a, ha, e1, _⟩ | ⟨b, hb, e1, _⟩
    · rw [e1]; exact hl.dom a ha
    · rw [e1]; exact dom b hb
  · rcases mem e he with ⟨a, ha, e1, _⟩ | ⟨b, hb, e1, _⟩
    · rw [e1]; exact hl.le a ha
    · rw [e1]; exact le b hb
  · obtain ⟨a, ha, e⟩ := hl.top
    obtain ⟨x, hx, ex⟩ := mergePts_mem (vc := vc) n l P a ha
    exact ⟨x, hx, by rw [ex]; exact e⟩

/-! ## interpolated terms -/

theorem mem_interpTerms {pts : List (ZMod p)} {v : Var} {e : Mono × List (ZMod p)} {t : Mono × ZMod p} (h : t ∈ interpTerms p pts v e) :
    t.2 ≠ 0 ∧ ∃ j : ℕ, j < pts.length ∧ t.2 = interpCoef p pts e.2 j ∧ t.1 = if j ≠ 0 then ⟨e.1.data ++ [(v, (j : Int))], e.1.deg + j⟩ else e.1 := by
  unfold interpTerms at h
  rw [List.mem_filterMap] at h
  obtain ⟨j, hj, h⟩ := h
  rw [List.mem_reverse, List.mem_range] at hj
  split at h
  · rename_i hc
    rw [Option.some.injEq] at h
    rw [← h]
    exact ⟨hc, j, hj, rfl, rfl⟩
  · simp at h

theorem E_ext (v : Var) (m : Mono) (j : ℕ) (w : Var) :
    E (if j ≠ 0 then (⟨m.data ++ [(v, (j : Int))], m.deg + j⟩ : Mono) else m).data w = E m.data w + if v = w then (j : Int) else 0 := by
  by_cases hj : j = 0
  · rw [if_neg (by simp [hj]), hj]; simp
  · rw [if_pos hj]
    show E (m.data ++ [(v, (j : Int))]) w = _
    rw [E_append, E_cons, E_nil, add_zero]

theorem ext_valid {v : Var} {m : Mono} (hm : Valid vc m) (hv : ∀ x ∈ m.data, vc x.1 v = true) (j : ℕ) :
    Valid vc (if j ≠ 0 then (⟨m.data ++ [(v, (j : Int))], m.deg + j⟩ : Mono) else m) := by
  by_cases hj : j = 0
  · rw [if_neg (by simp [hj])]; exact hm
  · rw [if_pos hj]
    refine ⟨?_, ?_, ?_⟩
    · show (m.data ++ [(v, (j : Int))]).Pairwise _
      rw [List.pairwise_append]
      exact ⟨hm.sorted, by simp, fun a ha b hb => by rw [List.mem_singleton.1 hb]; exact hv a ha⟩
    · intro x hx
      rcases List.mem_append.1 hx with hx | hx
      · exact hm.pos x hx
      · rw [List.mem_singleton.1 hx]; show (0 : Int) < (j : Int); omega
    · show m.deg + j = ((m.data ++ [(v, (j : Int))]).map Prod.snd).sum
      rw [List.map_append, List.sum_append, hm.deg]; simp

/-- the interpolated polynomial -/
theorem interp_spec (M : MonoOrd vc (lexGt vc)) {pts : List (ZMod p)} (hnd : pts.Nodup) {B : Var → ℕ} {v0 v : Var} (hv0 : v ≠ v0) {d : Int} {l : List (Mono × List (ZMod p))}
    (hl : VOK vc pts.length B v0 d l) (hB : ∀ w, 0 < B w → vc w v = true) :
    LP vc (l.flatMap (interpTerms p pts v)) ∧ (∀ t ∈ l.flatMap (interpTerms p pts v), ∀ w, w ≠ v → E t.1.data w ≤ B w) ∧
      (∀ t ∈ l.flatMap (interpTerms p pts v), E t.1.data v < pts.length) ∧
      (∀ t ∈ l.flatMap (interpTerms p pts v), E t.1.data v0 ≤ d) ∧ ∃ t ∈ l.flatMap (interpTerms p pts v), E t.1.data v0 = d := by
  have ho := M.vo
  have hb : ∀ e ∈ l, ∀ x ∈ e.1.data, vc x.1 v = true := fun e he x hx => by
    refine hB _ ?_
    have h1 := pos_of_mem ho (hl.valid e he) hx
    have h2 := hl.dom e he x.1
    omega
  have hEv : ∀ e ∈ l, E e.1.data v = 0 := fun e he => by
    by_contra hc
    obtain ⟨x, hx, e1⟩ := exists_of_E hc
    have := hb e he x hx
    rw [e1, ho.irrefl _ trivial] at this
    simp at this
  have hmem : ∀ t ∈ l.flatMap (interpTerms p pts v), ∃ e ∈ l, t.2 ≠ 0 ∧ ∃ j : ℕ, j < pts.length ∧ t.1 = if j ≠ 0 then ⟨e.1.data ++ [(v, (j : Int))], e.1.deg + j⟩ else e.1 := by
    intro t ht
    obtain ⟨e, he, ht⟩ := List.mem_flatMap.1 ht
    obtain ⟨h1, j, h2, _, h4⟩ := mem_interpTerms ht
    exact ⟨e, he, h1, j, h2, h4⟩
  refine ⟨⟨fun t ht => ?_, ?_, fun t ht => ?_⟩, fun t ht w hw => ?_, fun t ht => ?_, fun t ht => ?_, ?_⟩
  · obtain ⟨e, he, _, j, _, ej⟩ := hmem t ht
    rw [ej]; exact ext_valid (hl.valid e he) (hb e he) j
  · rw [List.pairwise_flatMap]
    refine ⟨fun e he => ?_, hl.sorted.imp_of_mem fun {a b} ha hb' hab x hx y hy => ?_⟩
    · unfold interpTerms
      refine List.Pairwise.filterMap _ (R := fun a b : ℕ => b < a) ?_ ?_
      · intro a b hab x hx y hy
        split at hx
        · split at hy
          · rw [Option.some.injEq] at hx hy
            rw [← hx, ← hy]
            show lexGt vc (if a ≠ 0 then _ else _) (if b ≠ 0 then _ else _) = true
            rw [lexGt_iff ho (ext_valid (hl.valid e he) (hb e he) a) (ext_valid (hl.valid e he) (hb e he) b)]
            refine ⟨v, ?_, fun w hw => ?_⟩
            · rw [E_ext, E_ext, if_pos rfl, if_pos rfl]; omega
            · have : v ≠ w := by rintro rfl; rw [ho.irrefl _ trivial] at hw; simp at hw
              rw [E_ext, E_ext, if_neg this, if_neg this]
          · simp at hy
        · simp at hx
      · rw [List.pairwise_reverse]
        exact List.pairwise_lt_range
    · obtain ⟨_, j, _, _, ej⟩ := mem_interpTerms hx
      obtain ⟨_, k, _, _, ek⟩ := mem_interpTerms hy
      rw [ej, ek, lexGt_iff ho (ext_valid (hl.valid a ha) (hb a ha) j) (ext_valid (hl.valid b hb') (hb b hb') k)]
      obtain ⟨u, h1, h2⟩ := (lexGt_iff ho (hl.valid a ha) (hl.valid b hb')).1 hab
      have hu : vc u v = true := by
        have : E a.1.data u ≠ 0 := by
          have := E_nonneg (hl.valid b hb').pos u
          omega
        obtain ⟨x, hx, e1⟩ := exists_of_E this
        rw [← e1]; exact hb a ha x hx
      have huv : v ≠ u := by rintro rfl; rw [ho.irrefl _ trivial] at hu; simp at hu
      refine ⟨u, ?_, fun w hw => ?_⟩
      · rw [E_ext, E_ext, if_neg huv, if_neg huv]; omega
      · have : v ≠ w := by
          rintro rfl
          have := ho.trans _ _ _ trivial trivial trivial hw hu
          rw [ho.irrefl _ trivial] at this; simp at this
        rw [E_ext, E_ext, if_neg this, if_neg this, h2 w hw]
  · exact (hmem t ht).choose_spec.2.1
  · obtain ⟨e, he, _, j, _, ej⟩ := hmem t ht
    rw [ej, E_ext, if_neg (fun h => hw h.symm), add_zero]
    exact hl.dom e he w
  · obtain ⟨e, he, _, j, hj, ej⟩ := hmem t ht
    rw [ej, E_ext, if_pos rfl, hEv e he]; omega
  · obtain ⟨e, he, _, j, _, ej⟩ := hmem t ht
    rw [ej, E_ext, if_neg hv0, add_zero]
    exact hl.le e he
  · obtain ⟨e, he, hd⟩ := hl.top
    obtain ⟨k, hk, hk0⟩ := hl.nz e he
    obtain ⟨j, hj, hj0⟩ := interp_nonzero hnd hk hk0
    refine ⟨(if j ≠ 0 then ⟨e.1.data ++ [(v, (j : Int))], e.1.deg + j⟩ else e.1, interpCoef p pts e.2 j), List.mem_flatMap.2 ⟨e, he, ?_⟩, ?_⟩
    · unfold interpTerms
      rw [List.mem_filterMap]
      exact ⟨j, by simp [hj], by rw [if_pos hj0]⟩
    · rw [E_ext, if_neg hv0, add_zero]; exact hd

end

/-! ## Euclid's algorithm -/

section
variable {p : ℕ} [Fact p.Prime]

/-- one variable: a monomial that is not divisible by another one has a smaller exponent -/
theorem lt_of_not_div (ho : VarOrd vc) {v : Var} {l t : Mono} (hl : Valid vc l) (ht : Valid vc t) (vl : ∀ x ∈ l.data, x.1 = v) (vt : ∀ x ∈ t.data, x.1 = v)
    (h : ∀ m, Valid vc m → mul vc m l ≠ t) : E t.data v < E l.data v := by
  by_contra hc
  push Not at hc
  have hz : ∀ m : Mono, (∀ x ∈ m.data, x.1 = v) → ∀ w, w ≠ v → E m.data w = 0 := by
    intro m hm w hw
    by_contra hc
    obtain ⟨x, hx, e⟩ := exists_of_E hc
    exact hw (by rw [← e, hm x hx])
  have key : ∀ m, Valid vc m → (∀ x ∈ m.data, x.1 = v) → E m.data v = E t.data v - E l.data v → False := by
    intro m hm vm hE
    refine h m hm ((mul_valid ho hm hl).ext ho ht fun w => ?_)
    rw [E_mul]
    show E m.data w + E l.data w = _
    by_cases hw : w = v
    · rw [hw, hE]; ring
    · rw [hz m vm w hw, hz l vl w hw, hz t vt w hw, add_zero]
  by_cases h0 : E t.data v - E l.data v = 0
  · exact key (mkMono []) (mkMono_valid .nil (by simp)) (by simp [mkMono]) (by rw [h0]; rfl)
  · refine key (mkMono [(v, E t.data v - E l.data v)]) (mkMono_valid (by simp [SortedV]) ?_) (by simp [mkMono]) ?_
    · intro x hx
      rw [List.mem_singleton.1 hx]; show (0 : Int) < E t.data v - E l.data v; omega
    · show E [(v, E t.data v - E l.data v)] v = _
      rw [E_cons, if_pos rfl, E_nil, add_zero]

theorem coefDivF_ok {F : Type*} [Field F] : CoefDiv (coefDivF (F := F)) where
  div lc h k := by simp only [coefDivF]; rw [div_mul_cancel₀ _ h, add_zero]
  exact lc h q := by simp only [coefDivF]; rw [mul_div_cancel_right₀ _ h]

theorem mem_data_of_vars {R : Type*} [CommRing R] [DecidableEq R] (ho : VarOrd vc) {a : PV Mono R} (ha : LP vc a) {v : Var} (h : (val a).vars ⊆ {v}) : ∀ t ∈ a, ∀ x ∈ t.1.data, x.1 = v := by
  intro t ht x hx
  have := h ((mem_vars_iff ho ha).2 ⟨t, ht, x, hx, rfl⟩)
  simpa using this

/-- one division step for polynomials in one variable -/
theorem quoRemP_spec (ho : VarOrd vc) {v : Var} {a b : PV Mono (ZMod p)} {fuel : ℕ} {qr : PV Mono (ZMod p) × PV Mono (ZMod p)} (ha : LP vc a) (hb : LP vc b) (b0 : b ≠ [])
    (va : (val a).vars = {v}) (vb : (val b).vars ⊆ {v}) (da : (val a).degreeOf v < 2 ^ 63) (db : (val b).degreeOf v < 2 ^ 63) (h : quoRemP p vc fuel a b = some qr) :
    LP vc qr.2 ∧ val a = val qr.1 * val b + val qr.2 ∧ (val qr.2).vars ⊆ {v} ∧ (qr.2 = [] ∨ (val qr.2).degreeOf v < (val b).degreeOf v) := by
  have M := lex_ord ho
  have mda := mem_data_of_vars ho ha va.subset
  have mdb := mem_data_of_vars ho hb vb
  have hdeg : ∀ m : Mono, Valid vc m → (∀ x ∈ m.data, x.1 = v) → m.deg = E m.data v := by
    intro m hm hx
    rw [hm.deg]
    unfold E
    rw [List.filter_eq_self.2 (by simpa using fun a b h => hx (a, b) h)]
  have plan : 1 < b.length → DivPlan vc (codeLex (ZMod p) vc) a b ((polyVars a ∪ polyVars b).card = 1) := fun h2 => by
    refine plan_lex ho ha hb h2 ⟨fun t ht => ?_, fun t ht => ?_⟩
    · rw [hdeg t.1 (ha.monos t ht) (mda t ht)]
      have := ha.exp_le M ht v; omega
    · rw [hdeg t.1 (hb.monos t ht) (mdb t ht)]
      have := hb.exp_le M ht v; omega
  have hcard : polyVars a ∪ polyVars b = {v} := by
    rw [polyVars_eq M ha, polyVars_eq M hb, va]
    exact Finset.union_eq_left.2 vb
  obtain ⟨N, Q, R', r1, r2, r3, r4, r5, r6⟩ := polyDivRem_field_vars (C := codeLex (ZMod p) vc) (divc := coefDivF) M ha hb b0 plan (fun lc hlc k => ⟨by simp only [coefDivF]; rw [div_mul_cancel₀ _ hlc], rfl⟩)
  have h' : polyDivRem vc (codeLex (ZMod p) vc) coefDivF fuel a b = some (some qr) := by
    unfold quoRemP at h
    exact Option.join_eq_some_iff.1 h
  have h2 := polyDivRem_mono h' N
  rw [r1 (fuel + N) (by omega), Option.some.injEq, Option.some.injEq] at h2
  subst h2
  have vR : ∀ t ∈ R', ∀ x ∈ t.1.data, x.1 = v := fun t ht x hx => by
    have := r6 t ht x hx
    rw [hcard] at this
    simpa using this
  refine ⟨r3, r4, fun w hw => ?_, ?_⟩
  · obtain ⟨t, ht, x, hx, rfl⟩ := (mem_vars_iff ho r3).1 hw
    simp [vR t ht x hx]
  · by_cases hR : R' = []
    · exact .inl hR
    right
    obtain ⟨t, ht, e⟩ := r3.exists_exp M hR v
    obtain ⟨lt, b', rfl⟩ := List.exists_cons_of_ne_nil b0
    have := lt_of_not_div ho (hb.monos lt (by simp)) (r3.monos t ht) (mdb lt (by simp)) (vR t ht) (r5 (by rw [hcard]; rfl) t ht lt (by simp))
    have h3 := hb.exp_le M (t := lt) (by simp) v
    have e' : E t.1.data v = (val R').degreeOf v := e
    show (val R').degreeOf v < _
    omega

theorem euclid_spec (ho : VarOrd vc) {v : Var} (dfuel : ℕ) : ∀ (fuel : ℕ) (a r D : PV Mono (ZMod p)), LP vc a → LP vc r → a ≠ [] → (val a).vars ⊆ {v} → (val r).vars ⊆ {v} →
    (val a).degreeOf v < 2 ^ 63 → (r = [] ∨ (val r).degreeOf v < (val a).degreeOf v) → euclid p vc dfuel fuel a r = some D →
    LP vc D ∧ D ≠ [] ∧ IsGcd (val D) (val a) (val r) := by
  intro fuel
  induction fuel with
  | zero => intro a r D _ _ _ _ _ _ _ h; simp [euclid] at h
  | succ fuel ih =>
    intro a r D ha hr a0 va vr da hlt h
    rw [euclid] at h
    by_cases h0 : r = []
    · rw [if_pos h0, Option.some.injEq] at h
      subst h
      refine ⟨ha, a0, dvd_rfl, by rw [h0, val_nil]; exact dvd_zero _, fun d h1 _ => h1⟩
    · rw [if_neg h0, Option.bind_eq_some_iff] at h
      obtain ⟨qr, h1, h2⟩ := h
      have hlt := hlt.resolve_left h0
      have va' : (val a).vars = {v} := by
        refine Finset.Subset.antisymm va (Finset.singleton_subset_iff.2 ?_)
        by_contra hc
        rw [degreeOf_zero_iff.2 hc] at hlt
        omega
      obtain ⟨q1, q2, q3, q4⟩ := quoRemP_spec ho ha hr h0 va' vr da (by omega) h1
      obtain ⟨e1, e2, e3⟩ := ih r qr.2 D hr q1 h0 vr q3 (by omega) q4 h2
      exact ⟨e1, e2, e3.of_combo q2.symm⟩

end

end Mgcd
end CLPoly
