import Verif.Upoly.VHDefs
import Verif.Upoly.Zass

/-! # `__vanhoeij_recombine`: the product of the factors is the input; irreducibility if the classes separate the true factors -/

namespace CLPoly
namespace Upoly
open Polynomial

/-! ## `__extract_candidates` -/

theorem candidates_ok (rows : List (List ℤ)) (r : Nat) : ∀ c ∈ candidates rows r, c.Nodup ∧ ∀ k ∈ c, k < r := by
  intro c hc
  unfold candidates at hc
  split at hc
  · simp at hc
  · simp only [List.mem_map] at hc
    obtain ⟨i, _, rfl⟩ := hc
    exact ⟨List.nodup_range.filter _, fun k hk => List.mem_range.1 (List.mem_filter.1 hk).1⟩

theorem candidates_disjoint (rows : List (List ℤ)) (r : Nat) : (candidates rows r).Pairwise List.Disjoint := by
  unfold candidates
  split
  · exact .nil
  · simp only
    rw [List.pairwise_map]
    refine List.nodup_range.imp fun {a b} hab x hx hy => ?_
    have h1 := (List.mem_filter.1 hx).2
    have h2 := (List.mem_filter.1 hy).2
    simp only [decide_eq_true_eq] at h1 h2
    rw [h1] at h2
    exact hab (Option.some.inj h2)

/-! ## steps -/

/-- progress from `Rs·F` to `Rs'·F'` -/
structure Prog (m : ℤ) (F : ℤ[X]) (Rs : List ℤ[X]) (F' : ℤ[X]) (Rs' : List ℤ[X]) : Prop where
  prim : F'.IsPrimitive
  cop : IsCoprime F'.leadingCoeff m
  rs : ∀ R ∈ Rs', R.IsPrimitive ∧ 0 < R.natDegree
  assoc : Associated (Rs'.prod * F') (Rs.prod * F)
  dvd : F' ∣ F
  pos : 0 < F.leadingCoeff → 2 * F.leadingCoeff ≤ m → (∀ R ∈ Rs, 0 < R.leadingCoeff) → Rs'.prod * F' = Rs.prod * F ∧ 0 < F'.leadingCoeff ∧ 2 * F'.leadingCoeff ≤ m ∧ ∀ R ∈ Rs', 0 < R.leadingCoeff

theorem Prog.refl {m : ℤ} {F : ℤ[X]} {Rs : List ℤ[X]} (h1 : F.IsPrimitive) (h2 : IsCoprime F.leadingCoeff m) (h3 : ∀ R ∈ Rs, R.IsPrimitive ∧ 0 < R.natDegree) : Prog m F Rs F Rs :=
  ⟨h1, h2, h3, .refl _, dvd_rfl, fun a b c => ⟨rfl, a, b, c⟩⟩

theorem Prog.trans {m : ℤ} {F F' F'' : ℤ[X]} {Rs Rs' Rs'' : List ℤ[X]} (h : Prog m F Rs F' Rs') (h' : Prog m F' Rs' F'' Rs'') : Prog m F Rs F'' Rs'' :=
  ⟨h'.prim, h'.cop, h'.rs, h'.assoc.trans h.assoc, h'.dvd.trans h.dvd, fun a b c => by
    obtain ⟨x1, x2, x3, x4⟩ := h.pos a b c
    obtain ⟨y1, y2, y3, y4⟩ := h'.pos x2 x3 x4
    exact ⟨y1.trans x1, y2, y3, y4⟩⟩

theorem Prog.found {m : ℤ} {F G Q : ℤ[X]} {Ss Rs : List ℤ[X]} {g q : UPoly ℤ} {c : ℤ} (FD : Found m F Ss g q G Q c) (hG : 0 < G.natDegree) (h3 : ∀ R ∈ Rs, R.IsPrimitive ∧ 0 < R.natDegree) :
    Prog m F Rs Q (Rs ++ [G]) := by
  refine ⟨FD.pQ, FD.copQ, fun R hR => ?_, ?_, ?_, fun a b c => ?_⟩
  · rcases List.mem_append.1 hR with h | h
    · exact h3 R h
    · simp only [List.mem_singleton] at h; subst h; exact ⟨FD.pG, hG⟩
  · rw [List.prod_append, List.prod_singleton, mul_assoc]
    exact FD.assoc.symm.mul_left _
  · exact (Dvd.intro_left _ rfl).trans FD.assoc.symm.dvd
  · obtain ⟨e1, g3, q3⟩ := FD.pos a b
    have hlc : F.leadingCoeff = G.leadingCoeff * Q.leadingCoeff := by rw [e1, leadingCoeff_mul]
    refine ⟨by rw [List.prod_append, e1]; simp [mul_assoc], q3, by nlinarith, fun R h => ?_⟩
    rcases List.mem_append.1 h with h | h
    · exact c R h
    · simp only [List.mem_singleton] at h; subst h; exact g3

/-- the class `c` of modular factors separates nothing: a factor of `F` divisible (modulo `p`) by one of them is divisible by all of them -/
def Sep (p : Nat) (F : ℤ[X]) (T : List (UPoly ℤ)) (c : List Nat) : Prop :=
  ∀ A, A ∣ F → ∀ i ∈ c, ∀ j ∈ c, red p (toPoly (T.getD i [])) ∣ red p A → red p (toPoly (T.getD j [])) ∣ red p A

theorem prod_dvd_of_good {p : Nat} [hp : Fact p.Prime] {D : (ZMod p)[X]} : ∀ {S : List ℤ[X]}, Good p S → (∀ Y ∈ S, red p Y ∣ D) → red p S.prod ∣ D
  | [], _, _ => by simp
  | A :: S, h, hd => by
    have h1 : IsCoprime (red p A) (red p S.prod) := by simpa using good_append (k := [A]) (l := S) h
    rw [List.prod_cons, red_mul]
    exact h1.mul_dvd (hd A (by simp)) (prod_dvd_of_good (sublist_good h (List.sublist_cons_self A S)) fun Y hY => hd Y (by simp [hY]))

theorem found_sep_irreducible {p : Nat} [hp : Fact p.Prime] {K : Nat} {m : ℤ} {F G Q : ℤ[X]} {Ts S R : List ℤ[X]} (L : LiftOK p K m F Ts) (e : F = G * Q) (pG : G.IsPrimitive)
    (hS : Ts.Perm (S ++ R)) (ha : Associated (red p G) (red p S.prod)) (hne : S ≠ []) (hsep : ∀ A, A ∣ F → ∀ x ∈ S, ∀ y ∈ S, red p x ∣ red p A → red p y ∣ red p A) : Irreducible G := by
  obtain ⟨_, dG, _⟩ := L.split e hS ha
  have g := L.good.perm hS.symm
  have gS := sublist_good g (List.sublist_append_left S R)
  have dpos : 0 < G.natDegree := by
    rw [dG]
    by_contra h0
    exact hne (good_natDegree_pos gS (by omega))
  refine prim_irreducible pG dpos fun A B e' dA dB => ?_
  have hAF : A ∣ F := (Dvd.intro _ e'.symm : A ∣ G).trans (Dvd.intro _ e.symm)
  have h1 : red p A ∣ red p S.prod := by
    have : red p A ∣ red p G := by rw [e', red_mul]; exact Dvd.intro _ rfl
    exact this.trans ha.dvd
  obtain ⟨S', s1, s2⟩ := exists_sub S gS.irr _ h1
  have lA := lc_of_dvd L.lc hAF
  cases hS' : S' with
  | nil =>
    subst hS'
    have := associated_natDegree s2
    rw [red_natDegree lA] at this
    simp at this
    omega
  | cons x S'' =>
    subst hS'
    have hx : red p x ∣ red p A := by
      refine Dvd.dvd.trans ?_ s2.symm.dvd
      rw [List.prod_cons, red_mul]
      exact Dvd.intro _ rfl
    have hall : red p S.prod ∣ red p A := prod_dvd_of_good gS fun y hy => hsep A hAF x (s1.subset (by simp)) y hy hx
    have hd := natDegree_le_of_dvd (ha.dvd.trans hall) (red_ne_zero lA)
    rw [red_natDegree lA, red_natDegree (lc_of_dvd L.lc (Dvd.intro _ e.symm))] at hd
    have G0 : G ≠ 0 := by rintro rfl; simp at dpos
    rw [e'] at G0
    have := congrArg natDegree e'
    rw [natDegree_mul (left_ne_zero_of_mul G0) (right_ne_zero_of_mul G0)] at this
    omega

/-! ## the remaining factors -/

theorem vhRemain_perm {T : List (UPoly ℤ)} {used c : List Nat} (hc : c.Nodup) (hlt : ∀ k ∈ c, k < T.length) (hd : ∀ k ∈ c, k ∉ used) :
    (vhRemain T used).Perm ((c.map fun k => T.getD k []) ++ vhRemain T (used ++ c)) := by
  unfold vhRemain
  rw [← List.map_append]
  apply List.Perm.map
  rw [List.perm_ext_iff_of_nodup (List.nodup_range.filter _) (List.Nodup.append hc (List.nodup_range.filter _) ?_)]
  · intro k
    simp only [List.mem_append, List.mem_filter, List.mem_range, Bool.not_eq_true', List.contains_eq_mem, decide_eq_false_iff_not]
    constructor
    · rintro ⟨h1, h2⟩
      by_cases hk : k ∈ c
      · exact .inl hk
      · exact .inr ⟨h1, fun h => h.elim h2 hk⟩
    · rintro (h | ⟨h1, h2⟩)
      · exact ⟨hlt k h, hd k h⟩
      · exact ⟨h1, fun h => h2 (.inl h)⟩
  · intro k h1 h2
    have := (List.mem_filter.1 h2).2
    simp only [Bool.not_eq_true', List.contains_eq_mem, decide_eq_false_iff_not, List.mem_append] at this
    exact this (.inr h1)

theorem vhRemain_nil (T : List (UPoly ℤ)) : vhRemain T [] = T := by
  unfold vhRemain
  apply List.ext_getElem
  · simp
  · intro i h1 h2
    simp only [List.contains_eq_mem, List.not_mem_nil, decide_false, Bool.not_false, List.filter_true, List.getElem_map, List.getElem_range]
    rw [List.getD_eq_getElem]

theorem vhRemain_sublist (T : List (UPoly ℤ)) (used : List Nat) : (vhRemain T used).Sublist T := by
  conv_rhs => rw [← vhRemain_nil T]
  unfold vhRemain
  apply List.Sublist.map
  simp

theorem vhRemain_length {T : List (UPoly ℤ)} {used : List Nat} (h1 : used.Nodup) (h2 : ∀ k ∈ used, k < T.length) : (vhRemain T used).length + used.length = T.length := by
  have := (vhRemain_perm (used := []) h1 h2 (by simp)).length_eq
  rw [vhRemain_nil, List.length_append, List.length_map, List.nil_append] at this
  omega

/-- cancellation of a monic factor modulo `m` -/
theorem Cong.cancel {m : ℤ} (hm : 0 < m) {A B H : ℤ[X]} (hH : H.Monic) (h : Cong m (A * H) (B * H)) : Cong m A B := by
  obtain ⟨k, rfl⟩ := Int.eq_ofNat_of_zero_le hm.le
  rw [Cong.iff_map] at h ⊢
  rw [Polynomial.map_mul, Polynomial.map_mul] at h
  exact (hH.map _).isRegular.right h

theorem Cong.cancelC {m : ℤ} {l : ℤ} (hl : IsCoprime l m) {A B : ℤ[X]} (h : Cong m (C l * A) (C l * B)) : Cong m A B := by
  obtain ⟨u, v, e⟩ := hl
  have h1 : Cong m (C (u * l)) 1 := by
    refine ⟨C (-v), ?_⟩
    rw [← C_1, ← C_sub, ← C_mul]
    congr 1
    linear_combination e
  have h2 : ∀ X : ℤ[X], Cong m (C u * (C l * X)) X := fun X => by
    rw [← mul_assoc, ← C_mul]
    simpa using h1.mul (Cong.rfl' (F := X))
  exact (h2 A).symm.trans ((Cong.rfl'.mul h).trans (h2 B))

/-- the congruence for the remaining factors after a factor was found -/
theorem found_cong {m : ℤ} (hm : 1 < m) {F G Q : ℤ[X]} {Ss Rs : List ℤ[X]} {g q : UPoly ℤ} {c : ℤ} (hcop : IsCoprime F.leadingCoeff m) (FD : Found m F Ss g q G Q c) (hS : ∀ P ∈ Ss, P.Monic)
    (hR : ∀ P ∈ Rs, P.Monic) (h : Cong m (C F.leadingCoeff * (Ss.prod * Rs.prod)) F) : Cong m (C Q.leadingCoeff * Rs.prod) Q := by
  have m0 : 0 < m := by omega
  have mS := monic_prodZ hS
  have mR := monic_prodZ hR
  -- with the sign
  obtain ⟨ε, he, hF⟩ : ∃ ε : ℤ, (ε = 1 ∨ ε = -1) ∧ F = C ε * (G * Q) := by
    rcases associated_int FD.assoc with h | h
    · exact ⟨1, .inl rfl, by rw [C_1, one_mul]; exact h⟩
    · exact ⟨-1, .inr rfl, by rw [C_neg, C_1, neg_one_mul]; exact h⟩
  have h1 : Cong m (C F.leadingCoeff * (Q * Ss.prod)) (C F.leadingCoeff * (C (ε * c) * Rs.prod * Ss.prod)) := by
    have a : Cong m (C F.leadingCoeff * (Q * Ss.prod)) (C c * G * Q) := by
      have := (FD.cong.symm).mul (Cong.rfl' (F := Q))
      refine (Cong.of_eq ?_).trans this
      ring
    have b : C c * G * Q = C (ε * c) * F := by
      have : C ε * C ε = (1 : ℤ[X]) := by rcases he with rfl | rfl <;> simp
      rw [hF, C_mul]
      linear_combination (-(C c * G * Q)) * this
    rw [b] at a
    refine a.trans ((Cong.rfl'.mul h.symm).trans (Cong.of_eq ?_))
    ring
  have h2 : Cong m Q (C (ε * c) * Rs.prod) := (h1.cancelC hcop).cancel m0 mS
  have F0 : F ≠ 0 := by
    rintro rfl
    rw [leadingCoeff_zero, isCoprime_zero_left] at hcop
    rcases Int.isUnit_iff.1 hcop with h | h <;> omega
  have G0 : G ≠ 0 := FD.pG.ne_zero
  have Q0 : Q ≠ 0 := FD.pQ.ne_zero
  have hdF : F.natDegree = (Ss.prod * Rs.prod).natDegree := by
    have hle : F.natDegree ≤ (Ss.prod * Rs.prod).natDegree := by
      by_contra hc
      push Not at hc
      have := Cong.iff_coeff.1 h F.natDegree
      rw [coeff_C_mul, coeff_eq_zero_of_natDegree_lt hc, mul_zero, zero_sub, dvd_neg, coeff_natDegree] at this
      have := hcop.symm.isUnit_of_dvd' dvd_rfl this
      rcases Int.isUnit_iff.1 this with h | h <;> omega
    refine le_antisymm hle ?_
    by_contra hc
    push Not at hc
    have := Cong.iff_coeff.1 h (Ss.prod * Rs.prod).natDegree
    rw [coeff_C_mul, (mS.mul mR).coeff_natDegree, mul_one, coeff_eq_zero_of_natDegree_lt hc, sub_zero] at this
    have := hcop.symm.isUnit_of_dvd' dvd_rfl this
    rcases Int.isUnit_iff.1 this with h | h <;> omega
  have hdQ : Q.natDegree = Rs.prod.natDegree := by
    have e1 : F.natDegree = G.natDegree + Q.natDegree := by
      rw [natDegree_eq_of_degree_eq (degree_eq_degree_of_associated FD.assoc), natDegree_mul G0 Q0]
    rw [mS.natDegree_mul mR] at hdF
    have := FD.deg
    omega
  have h3 := Cong.iff_coeff.1 h2 Q.natDegree
  rw [coeff_natDegree, coeff_C_mul, hdQ, mR.coeff_natDegree, mul_one] at h3
  have h4 : Cong m (C Q.leadingCoeff) (C (ε * c)) := by
    unfold Cong
    rw [← C_sub]
    exact C_dvd_C.2 h3
  exact (h4.mul .rfl').trans h2.symm

/-! ## one round -/

/-- the invariant of a round -/
structure RoundSt (m : ℤ) (T : List (UPoly ℤ)) (x : UPoly ℤ × List Nat × List (UPoly ℤ)) (F : ℤ[X]) (Rs : List ℤ[X]) : Prop where
  isF : Is x.1 F
  prim : F.IsPrimitive
  cop : IsCoprime F.leadingCoeff m
  nodup : x.2.1.Nodup
  lt : ∀ k ∈ x.2.1, k < T.length
  len : x.2.1.length < T.length
  isR : List.Forall₂ Is x.2.2 Rs
  rs : ∀ R ∈ Rs, R.IsPrimitive ∧ 0 < R.natDegree

theorem getD_mem {T : List (UPoly ℤ)} {k : Nat} (h : k < T.length) : T.getD k [] ∈ T := by
  rw [List.getD_eq_getElem _ _ h]
  exact List.getElem_mem h

theorem vhRound_spec {m : ℤ} (hm : 1 < m) {T : List (UPoly ℤ)} (hT : ∀ t ∈ T, Canon comp t) (hTm : ∀ t ∈ T, (toPoly t).Monic ∧ 0 < (toPoly t).natDegree) :
    ∀ (cs : List (List Nat)), (∀ c ∈ cs, c.Nodup ∧ ∀ k ∈ c, k < T.length) → ∀ (x : UPoly ℤ × List Nat × List (UPoly ℤ)) (F : ℤ[X]) (Rs : List ℤ[X]), RoundSt m T x F Rs →
    ∃ y F' Rs', vhRound m T cs x = some y ∧ RoundSt m T y F' Rs' ∧ Prog m F Rs F' Rs' ∧ (y = x ∨ x.2.1.length < y.2.1.length) ∧
      (Cong m (C F.leadingCoeff * ((vhRemain T x.2.1).map toPoly).prod) F → Cong m (C F'.leadingCoeff * ((vhRemain T y.2.1).map toPoly).prod) F') ∧
      ∀ (p : Nat) [Fact p.Prime] (K : Nat), LiftOK p K m F ((vhRemain T x.2.1).map toPoly) → (∀ c ∈ cs, Sep p F T c) → (∀ R ∈ Rs, Irreducible R) →
        LiftOK p K m F' ((vhRemain T y.2.1).map toPoly) ∧ ∀ R ∈ Rs', Irreducible R := by
  intro cs
  induction cs with
  | nil => intro _ x F Rs hx; exact ⟨x, F, Rs, rfl, hx, .refl hx.prim hx.cop hx.rs, .inl rfl, id, fun p _ K L _ h => ⟨L, h⟩⟩
  | cons c cs ih =>
    intro hcs x F Rs hx
    have e : vhRound m T (c :: cs) x = (vhTry m T x c).bind fun y => vhRound m T cs y := rfl
    obtain ⟨c1, c2⟩ := hcs c (by simp)
    have step : ∃ y F' Rs', vhTry m T x c = some y ∧ RoundSt m T y F' Rs' ∧ Prog m F Rs F' Rs' ∧ (y = x ∨ x.2.1.length < y.2.1.length) ∧
        (Cong m (C F.leadingCoeff * ((vhRemain T x.2.1).map toPoly).prod) F → Cong m (C F'.leadingCoeff * ((vhRemain T y.2.1).map toPoly).prod) F') ∧
        ∀ (p : Nat) [Fact p.Prime] (K : Nat), LiftOK p K m F ((vhRemain T x.2.1).map toPoly) → Sep p F T c → (∀ R ∈ Rs, Irreducible R) →
          LiftOK p K m F' ((vhRemain T y.2.1).map toPoly) ∧ ∀ R ∈ Rs', Irreducible R := by
      unfold vhTry
      split
      · exact ⟨x, F, Rs, rfl, hx, .refl hx.prim hx.cop hx.rs, .inl rfl, id, fun p _ K L _ h => ⟨L, h⟩⟩
      · next hg =>
        rw [not_or, not_or] at hg
        obtain ⟨hg1, hg2, hg3⟩ := hg
        have hd : ∀ k ∈ c, k ∉ x.2.1 := fun k hk hk' => hg3 (List.any_eq_true.2 ⟨k, hk, by simpa using hk'⟩)
        obtain ⟨S, hS⟩ : ∃ S, S = c.map fun k => T.getD k [] := ⟨_, rfl⟩
        have hST : ∀ t ∈ S, t ∈ T := fun t ht => by
          rw [hS] at ht
          obtain ⟨k, hk, rfl⟩ := List.mem_map.1 ht
          exact getD_mem (c2 k hk)
        have hSm : ∀ P ∈ S.map toPoly, P.Monic ∧ 0 < P.natDegree := fun P hP => by
          obtain ⟨t, ht, rfl⟩ := List.mem_map.1 hP
          exact hTm t (hST t ht)
        simp only [← hS, is_lc hx.isF]
        obtain ⟨q, r, e1, e2⟩ := trial_sound hm hx.isF hx.prim hx.cop (forall2_toPoly fun t ht => hT t (hST t ht)) fun P hP => (hSm P hP).1
        rw [e1, Option.map_some]
        by_cases hr : r = []
        · rw [if_pos hr]
          obtain ⟨G, Q, k, FD⟩ := e2 hr
          have hSne : S.map toPoly ≠ [] := by
            rw [hS]
            simpa using hg1
          have hGd : 0 < G.natDegree := by rw [FD.deg]; exact zassLoop_spec.prod_natDegree_pos (m := m) hSm hSne
          have hP := Prog.found FD hGd hx.rs
          have hpm : ((vhRemain T x.2.1).map toPoly).Perm (S.map toPoly ++ (vhRemain T (x.2.1 ++ c)).map toPoly) := by
            rw [← List.map_append, hS]
            exact (vhRemain_perm c1 c2 hd).map _
          refine ⟨_, Q, Rs ++ [G], rfl, ⟨FD.isQ, FD.pQ, FD.copQ, ?_, ?_, ?_, List.rel_append hx.isR (.cons FD.isG .nil), hP.rs⟩, hP, .inr ?_, fun hcong => ?_, fun p _ K L hsep hirr => ?_⟩
          · exact hx.nodup.append c1 fun k h1 h2 => hd k h2 h1
          · intro k hk
            rcases List.mem_append.1 hk with h | h
            · exact hx.lt k h
            · exact c2 k h
          · simp only [List.length_append]; omega
          · simp only [List.length_append]
            have := List.length_pos_iff.2 hg1
            omega
          · refine found_cong hm hx.cop FD (fun P hP => (hSm P hP).1) (fun P hP => ?_) ?_
            · obtain ⟨t, ht, rfl⟩ := List.mem_map.1 hP
              exact (hTm t ((vhRemain_sublist T _).subset ht)).1
            · rw [← List.prod_append, ← hpm.prod_eq]; exact hcong
          · have L1 := L.assoc FD.assoc
            have ha := found_assoc L (fun P hP => (hSm P hP).1) FD.cong
            refine ⟨found_next L1 rfl hpm ha, fun R hR => ?_⟩
            rcases List.mem_append.1 hR with h | h
            · exact hirr R h
            · simp only [List.mem_singleton] at h
              subst h
              refine found_sep_irreducible L1 rfl FD.pG hpm ha hSne fun A hA X hX Y hY hXA => ?_
              rw [hS, List.map_map] at hX hY
              obtain ⟨i, hi, rfl⟩ := List.mem_map.1 hX
              obtain ⟨j, hj, rfl⟩ := List.mem_map.1 hY
              exact hsep A (hA.trans FD.assoc.symm.dvd) i hi j hj hXA
        · rw [if_neg hr]
          exact ⟨x, F, Rs, rfl, hx, .refl hx.prim hx.cop hx.rs, .inl rfl, id, fun p _ K L _ h => ⟨L, h⟩⟩
    obtain ⟨y, F', Rs', s1, s2, s3, s4, s6, s5⟩ := step
    obtain ⟨z, F'', Rs'', t1, t2, t3, t4, t6, t5⟩ := ih (fun c hc => hcs c (by simp [hc])) y F' Rs' s2
    refine ⟨z, F'', Rs'', by rw [e, s1, Option.bind_some, t1], t2, s3.trans t3, ?_, fun h => t6 (s6 h), fun p _ K L hsep hirr => ?_⟩
    · rcases s4 with rfl | s4
      · exact t4
      · rcases t4 with rfl | t4
        · exact .inr s4
        · exact .inr (s4.trans t4)
    · obtain ⟨L', h'⟩ := s5 p K L (hsep c (by simp)) hirr
      exact t5 p K L' (fun c hc A hA => hsep c (by simp [hc]) A (hA.trans s3.dvd)) h'

/-! ## the loop -/

theorem vhLoop_spec {rows : Rows} (hrows : ∀ n jt f T, rows n jt f T ≠ none) {sort : List (UPoly ℤ) → List (UPoly ℤ)} (hsort : ∀ l, (sort l).Perm l) {m : ℤ} (hm : 1 < m) {J0 Jmax : Nat}
    (hJ0 : 1 ≤ J0) (hJ : J0 ≤ Jmax) : ∀ (fuel n jt : Nat) (f : UPoly ℤ) (T res : List (UPoly ℤ)) (F : ℤ[X]) (Rs : List ℤ[X]), Is f F → F.IsPrimitive → IsCoprime F.leadingCoeff m →
    (∀ t ∈ T, Canon comp t) → (∀ t ∈ T, (toPoly t).Monic ∧ 0 < (toPoly t).natDegree) → List.Forall₂ Is res Rs → (∀ R ∈ Rs, R.IsPrimitive ∧ 0 < R.natDegree) →
    jt ≤ Jmax → T.length * (Jmax + 3) + (Jmax + 1 - jt) < fuel →
    ∃ out Os, vhLoop rows sort m J0 Jmax fuel n jt f T res = some out ∧ List.Forall₂ Is out Os ∧ Associated Os.prod (Rs.prod * F) ∧ (∀ R ∈ Os, R.IsPrimitive ∧ 0 < R.natDegree) ∧
      (0 < F.leadingCoeff → 2 * F.leadingCoeff ≤ m → (∀ R ∈ Rs, 0 < R.leadingCoeff) → Os.prod = Rs.prod * F ∧ ∀ R ∈ Os, 0 < R.leadingCoeff) ∧
      ∀ (p : Nat) [Fact p.Prime] (K : Nat), LiftOK p K m F (T.map toPoly) →
        (∀ n jt f' T' rw, Canon comp f' → toPoly f' ∣ F → T'.Sublist T → rows n jt f' T' = some rw → ∀ c ∈ candidates rw T'.length, Sep p (toPoly f') T' c) →
        (∀ R ∈ Rs, Irreducible R) → ∀ R ∈ Os, Irreducible R := by
  intro fuel
  induction fuel with
  | zero => intro n jt f T res F Rs _ _ _ _ _ _ _ _ h; omega
  | succ fuel ih =>
    intro n jt f T res F Rs hf pF hcop hT hTm hres hRs hjt hfu
    have e : vhLoop rows sort m J0 Jmax (fuel + 1) n jt f T res = if T.length > 1 then
      (rows n jt f T).bind fun rw =>
      (vhRound m T (candidates rw T.length) (f, [], res)).bind fun s =>
      if s.2.1 ≠ [] then vhLoop rows sort m J0 Jmax fuel (n + 1) 0 s.1 (vhRemain T s.2.1) s.2.2
      else
        let jt' := if jt = 0 then J0 else jt * 2
        if jt' > Jmax then (zassenhaus sort m f T).map fun z => res ++ z
        else vhLoop rows sort m J0 Jmax fuel (n + 1) jt' f T res
    else some (sort (if f ≠ [] ∧ deg f > 0 then res ++ [f] else res)) := rfl
    rw [e]
    by_cases hl : T.length > 1
    · rw [if_pos hl]
      obtain ⟨rw', hrw⟩ := Option.ne_none_iff_exists'.1 (hrows n jt f T)
      rw [hrw, Option.bind_some]
      obtain ⟨y, F', Rs', s1, s2, s3, s4, _, s5⟩ := vhRound_spec hm hT hTm (candidates rw' T.length) (candidates_ok _ _) (f, [], res) F Rs ⟨hf, pF, hcop, by simp, by simp, by simp; omega, hres, hRs⟩
      rw [s1, Option.bind_some]
      by_cases hu : y.2.1 ≠ []
      · rw [if_pos hu]
        have hsub := vhRemain_sublist T y.2.1
        have hlen := vhRemain_length s2.nodup s2.lt
        have hup := List.length_pos_iff.2 hu
        have hmul : (vhRemain T y.2.1).length * (Jmax + 3) + (Jmax + 3) ≤ T.length * (Jmax + 3) := by
          rw [← hlen, add_mul]
          have : 1 * (Jmax + 3) ≤ y.2.1.length * (Jmax + 3) := Nat.mul_le_mul_right _ hup
          omega
        obtain ⟨out, Os, o1, o2, o3, o4, o5, o6⟩ := ih (n + 1) 0 y.1 (vhRemain T y.2.1) y.2.2 F' Rs' s2.isF s2.prim s2.cop (fun t ht => hT t (hsub.subset ht)) (fun t ht => hTm t (hsub.subset ht)) s2.isR s2.rs
          (by omega) (by omega)
        refine ⟨out, Os, o1, o2, o3.trans s3.assoc, o4, fun a b c => ?_, fun p _ K L hsep hirr => ?_⟩
        · obtain ⟨x1, x2, x3, x4⟩ := s3.pos a b c
          obtain ⟨y1, y2⟩ := o5 x2 x3 x4
          exact ⟨y1.trans x1, y2⟩
        · have hsep0 : ∀ c ∈ candidates rw' T.length, Sep p F T c := by
            have := hsep n jt f T rw' hf.canon (by rw [hf.eq]) (List.Sublist.refl _) hrw
            rwa [hf.eq] at this
          obtain ⟨L', h'⟩ := s5 p K (by rw [vhRemain_nil]; exact L) hsep0 hirr
          exact o6 p K L' (fun n jt f' T' rw hc hd hs => hsep n jt f' T' rw hc (hd.trans s3.dvd) (hs.trans hsub)) h'
      · rw [if_neg hu]
        have hjt' : jt < (if jt = 0 then J0 else jt * 2) := by split <;> omega
        obtain ⟨jt', hj⟩ : ∃ jt', jt' = if jt = 0 then J0 else jt * 2 := ⟨_, rfl⟩
        simp only [← hj]
        rw [← hj] at hjt'
        by_cases hx : jt' > Jmax
        · rw [if_pos hx]
          obtain ⟨z, Zs, z1, z2, z3, z4, z5, z6⟩ := zassenhaus_spec hsort hm hf pF hcop (forall2_toPoly hT) fun P hP => by
            obtain ⟨t, ht, rfl⟩ := List.mem_map.1 hP
            exact hTm t ht
          rw [z1, Option.map_some]
          refine ⟨_, Rs ++ Zs, rfl, List.rel_append hres z2, by rw [List.prod_append]; exact z3.mul_left _, fun R hR => ?_, fun a b c => ?_, fun p _ K L _ hirr R hR => ?_⟩
          · rcases List.mem_append.1 hR with h | h
            · exact hRs R h
            · exact z4 R h
          · obtain ⟨y1, y2⟩ := z5 a b
            refine ⟨by rw [List.prod_append, y1], fun R hR => ?_⟩
            rcases List.mem_append.1 hR with h | h
            · exact c R h
            · exact y2 R h
          · rcases List.mem_append.1 hR with h | h
            · exact hirr R h
            · exact z6 p K L R h
        · rw [if_neg hx]
          obtain ⟨out, Os, o1, o2, o3, o4, o5, o6⟩ := ih (n + 1) jt' f T res F Rs hf pF hcop hT hTm hres hRs (by omega) (by omega)
          exact ⟨out, Os, o1, o2, o3, o4, o5, o6⟩
    · rw [if_neg hl]
      obtain ⟨out, ho⟩ : ∃ out, out = if f ≠ [] ∧ deg f > 0 then res ++ [f] else res := ⟨_, rfl⟩
      have hout : ∃ Os, List.Forall₂ Is out Os ∧ Associated Os.prod (Rs.prod * F) ∧ (∀ R ∈ Os, R.IsPrimitive ∧ 0 < R.natDegree) ∧
          (0 < F.leadingCoeff → 2 * F.leadingCoeff ≤ m → (∀ R ∈ Rs, 0 < R.leadingCoeff) → Os.prod = Rs.prod * F ∧ ∀ R ∈ Os, 0 < R.leadingCoeff) ∧
          ∀ (p : Nat) [Fact p.Prime] (K : Nat), LiftOK p K m F (T.map toPoly) → (∀ R ∈ Rs, Irreducible R) → ∀ R ∈ Os, Irreducible R := by
        rw [ho]
        by_cases hc : f ≠ [] ∧ deg f > 0
        · rw [if_pos hc]
          have hd' := hc.2
          rw [is_deg hf] at hd'
          refine ⟨Rs ++ [F], List.rel_append hres (.cons hf .nil), by rw [List.prod_append]; simp, fun R hR => ?_, fun h1 _ h3 => ⟨by rw [List.prod_append]; simp, fun R hR => ?_⟩, fun p _ K L hirr R hR => ?_⟩
          · rcases List.mem_append.1 hR with h | h
            · exact hRs R h
            · simp only [List.mem_singleton] at h; subst h; exact ⟨pF, hd'⟩
          · rcases List.mem_append.1 hR with h | h
            · exact h3 R h
            · simp only [List.mem_singleton] at h; subst h; exact h1
          · rcases List.mem_append.1 hR with h | h
            · exact hirr R h
            · simp only [List.mem_singleton] at h
              subst h
              exact rest_irreducible L (noSmall_one _ _ L.lc) pF (by rw [List.length_map]; omega) hd'
        · rw [if_neg hc]
          have hd : F.natDegree = 0 := by
            by_contra h
            exact hc ⟨fun h' => pF.ne_zero ((is_nil_iff hf).1 h'), by rw [is_deg hf]; omega⟩
          refine ⟨Rs, hres, associated_mul_unit_right _ _ (prim_deg_zero_unit pF hd), hRs, fun h1 _ h3 => ⟨by rw [prim_deg_zero pF h1 hd, mul_one], h3⟩, fun p _ K L hirr => hirr⟩
      obtain ⟨Os, o1, o2, o3, o5, o4⟩ := hout
      obtain ⟨rfl, oc⟩ := forall2_toPoly_of o1
      have hp := hsort out
      refine ⟨_, (sort out).map toPoly, by rw [ho], forall2_toPoly fun t ht => oc t (hp.subset ht), ?_, ?_, ?_, ?_⟩
      · rw [(hp.map toPoly).prod_eq]; exact o2
      · exact fun R hR => o3 R ((hp.map toPoly).subset hR)
      · exact fun h1 h2 h3 => ⟨by rw [(hp.map toPoly).prod_eq]; exact (o5 h1 h2 h3).1, fun R hR => (o5 h1 h2 h3).2 R ((hp.map toPoly).subset hR)⟩
      · exact fun p _ K L _ hirr R hR => o4 p K L hirr R ((hp.map toPoly).subset hR)

/-- `__vanhoeij_recombine` -/
theorem vanHoeij_spec {rows : Rows} (hrows : ∀ n jt f T, rows n jt f T ≠ none) {sort : List (UPoly ℤ) → List (UPoly ℤ)} (hsort : ∀ l, (sort l).Perm l) {m : ℤ} (hm : 1 < m) {f : UPoly ℤ} {F : ℤ[X]}
    (hf : Is f F) (pF : F.IsPrimitive) (hd : 0 < F.natDegree) (hcop : IsCoprime F.leadingCoeff m) {T : List (UPoly ℤ)} {Ts : List ℤ[X]} (hT : List.Forall₂ Is T Ts) (hTm : ∀ A ∈ Ts, A.Monic ∧ 0 < A.natDegree) :
    ∃ res Rs, vanHoeij rows sort m f T = some res ∧ List.Forall₂ Is res Rs ∧ Associated Rs.prod F ∧ (∀ R ∈ Rs, R.IsPrimitive ∧ 0 < R.natDegree) ∧
      (0 < F.leadingCoeff → 2 * F.leadingCoeff ≤ m → Rs.prod = F ∧ ∀ R ∈ Rs, 0 < R.leadingCoeff) ∧
      ∀ (p : Nat) [Fact p.Prime] (K : Nat), LiftOK p K m F Ts →
        (∀ n jt f' T' rw, Canon comp f' → toPoly f' ∣ F → T'.Sublist T → rows n jt f' T' = some rw → ∀ c ∈ candidates rw T'.length, Sep p (toPoly f') T' c) → ∀ R ∈ Rs, Irreducible R := by
  obtain ⟨rfl, hTc⟩ := forall2_toPoly_of hT
  have hdd : deg f = F.natDegree := is_deg hf
  obtain ⟨out, Os, o1, o2, o3, o4, o5, o6⟩ := vhLoop_spec hrows hsort hm (J0 := min (if 3 * T.length > deg f + 1 then 30 else 10) ((deg f + 1) / 2)) (Jmax := (deg f + 1) / 2)
    (by split <;> omega) (by omega) ((T.length + 1) * ((deg f + 1) / 2 + 3)) 0 0 f T [] F [] hf pF hcop hTc (fun t ht => hTm _ (List.mem_map_of_mem ht)) .nil (by simp) (by omega) (by rw [add_mul]; omega)
  rw [List.prod_nil, one_mul] at o3 o5
  exact ⟨out, Os, o1, o2, o3, o4, fun a b => o5 a b (by simp), fun p _ K L h => o6 p K L h (by simp)⟩

end Upoly
end CLPoly
