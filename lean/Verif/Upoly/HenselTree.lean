import Verif.Upoly.Hensel
import Mathlib.Data.List.Forall2
import Mathlib.Algebra.BigOperators.Group.List.Basic

/-! # The Hensel factor tree: construction, lifting, extraction -/

namespace CLPoly
namespace Upoly
open Polynomial
open Dense (IsGcd)

/-- the tree `T` factors `F` modulo `m` into the leaf polynomials `Ls` -/
inductive TreeOK (m : ℤ) : ℤ[X] → HTree → List ℤ[X] → Prop
  | leaf (F : ℤ[X]) : TreeOK m F .leaf [F]
  | node {F G H S T : ℤ[X]} {g h s t : UPoly ℤ} {l r : HTree} {Ls Rs : List ℤ[X]} (hg : Is g G) (hh : Is h H) (hs : Is s S) (ht : Is t T)
      (N : Node m F.natDegree F G H S T) (hd : G.natDegree + H.natDegree = F.natDegree) (rg : Red m G) (rh : Red m H)
      (hl : TreeOK m G l Ls) (hr : TreeOK m H r Rs) : TreeOK m F (.node g h s t l r) (Ls ++ Rs)

theorem cong_lc {m : ℤ} {F G H : ℤ[X]} (h : Cong m (G * H) F) (hH : H.Monic) (hd : G.natDegree + H.natDegree = F.natDegree) : m ∣ G.leadingCoeff - F.leadingCoeff := by
  have := Cong.iff_coeff.1 h F.natDegree
  rwa [← hd, coeff_mul_degree_add_degree, hH.leadingCoeff, mul_one, hd] at this

theorem not_dvd_of_coprime {a m : ℤ} (hm : 1 < m) (h : IsCoprime a m) : ¬ m ∣ a := fun hd => by
  have := h.isUnit_of_dvd' hd dvd_rfl
  rcases Int.isUnit_iff.1 this with h | h <;> omega

theorem coprime_of_cong {a b m : ℤ} (h : IsCoprime b m) (hd : m ∣ a - b) : IsCoprime a m := by
  obtain ⟨k, hk⟩ := hd
  have : a = b + m * k := by omega
  rw [this]
  exact IsCoprime.add_mul_left_left h k

theorem cong_deg {M : ℤ} {F G H : ℤ[X]} (h : Cong M (G * H) F) (hl : ¬ M ∣ F.leadingCoeff) (hd : G.natDegree + H.natDegree ≤ F.natDegree) :
    G.natDegree + H.natDegree = F.natDegree := by
  by_contra hc
  apply hl
  have := Cong.iff_coeff.1 h F.natDegree
  rw [coeff_eq_zero_of_natDegree_lt (p := G * H) (lt_of_le_of_lt natDegree_mul_le (by omega)), zero_sub] at this
  exact (dvd_neg).1 this

theorem liftTree_spec {m : ℤ} (hm : 1 < m) {F0 : ℤ[X]} {T : HTree} {Ls : List ℤ[X]} (hT : TreeOK m F0 T Ls) :
    ∀ {f : UPoly ℤ} {F : ℤ[X]}, Is f F → Cong m F F0 → F.natDegree = F0.natDegree → IsCoprime F.leadingCoeff m →
      ∃ T' Ls', liftTree m f T = some T' ∧ TreeOK (m * m) F T' Ls' ∧ List.Forall₂ (fun L' L => Cong m L' L ∧ L'.natDegree = L.natDegree) Ls' Ls := by
  have mm1 : 1 < m * m := by nlinarith
  induction hT with
  | leaf F0 =>
    intro f F hf hc hd _
    exact ⟨.leaf, [F], rfl, .leaf F, .cons ⟨hc, hd⟩ .nil⟩
  | @node F0 G H S T g h s t l r Ls Rs hg hh hs ht N hd rg rh hl hr ihl ihr =>
    intro f F hf hc hdeg hcop
    have N1 : Node m F.natDegree F G H S T := ⟨N.prod.trans hc.symm, N.bez, N.monic, le_rfl, by rw [hdeg]; exact hd.le⟩
    obtain ⟨g', h', s', t', G', H', S', T', e1, g1, h1, s1, t1, N', cG, cH, dH, rG, rH, _, _⟩ := henselStep_spec hm hf hg hh hs ht N1
    have nd : ¬ m * m ∣ F.leadingCoeff := fun h => not_dvd_of_coprime hm hcop ((Dvd.intro _ rfl).trans h)
    have dd := cong_deg N'.prod nd N'.deg
    have dG : G'.natDegree = G.natDegree := by omega
    have lG := cong_lc N'.prod N'.monic dd
    have cop : IsCoprime G'.leadingCoeff m := coprime_of_cong hcop ((Dvd.intro _ rfl).trans lG)
    obtain ⟨Tl, Ll, l1, l2, l3⟩ := ihl g1 cG dG cop
    obtain ⟨Tr, Lr, r1, r2, r3⟩ := ihr h1 cH dH (by rw [N'.monic.leadingCoeff]; exact isCoprime_one_left)
    refine ⟨.node g' h' s' t' Tl Tr, Ll ++ Lr, ?_, .node g1 h1 s1 t1 N' dd rG rH l2 r2, List.rel_append l3 r3⟩
    show ((henselStep m f g h s t).bind fun x => (liftTree m x.1 l).bind fun l' => (liftTree m x.2.1 r).map fun r' => HTree.node x.1 x.2.1 x.2.2.1 x.2.2.2 l' r') = _
    rw [e1, Option.bind_some, l1, Option.bind_some, r1, Option.map_some]

theorem TreeOK.prod {m : ℤ} {F : ℤ[X]} {T : HTree} {Ls : List ℤ[X]} (h : TreeOK m F T Ls) : Cong m Ls.prod F := by
  induction h with
  | leaf F => simpa using Cong.rfl'
  | node hg hh hs ht N hd rg rh hl hr ihl ihr =>
    rw [List.prod_append]
    exact (ihl.mul ihr).trans N.prod

theorem TreeOK.extract {m : ℤ} {F : ℤ[X]} {T : HTree} {Ls : List ℤ[X]} (h : TreeOK m F T Ls) : ∀ {f : UPoly ℤ}, (T = .leaf → Is f F) → List.Forall₂ Is (extract f T) Ls := by
  induction h with
  | leaf F => intro f hf; exact .cons (hf rfl) .nil
  | node hg hh hs ht N hd rg rh hl hr ihl ihr =>
    intro f _
    exact List.rel_append (ihl fun _ => hg) (ihr fun _ => hh)

/-- reduced and congruent to one: equal to one -/
theorem monic_of_cong {m : ℤ} (hm : 1 < m) {G : ℤ[X]} (r : Red m G) (h : m ∣ G.leadingCoeff - 1) : G.Monic := by
  have := r G.natDegree
  have := Int.eq_zero_of_abs_lt_dvd h (by rw [leadingCoeff, abs_lt]; constructor <;> omega)
  rw [Monic]; omega

theorem TreeOK.monic {m : ℤ} (hm : 1 < m) {F : ℤ[X]} {T : HTree} {Ls : List ℤ[X]} (h : TreeOK m F T Ls) :
    (F.Monic → ∀ L ∈ Ls, L.Monic) ∧ ∃ L0 Lt, Ls = L0 :: Lt ∧ (∀ L ∈ Lt, L.Monic) ∧ m ∣ L0.leadingCoeff - F.leadingCoeff ∧ (T ≠ .leaf → ∀ L ∈ Ls, Red m L) := by
  induction h with
  | leaf F => exact ⟨fun hF => by simpa using hF, F, [], rfl, by simp, by simp, by simp⟩
  | @node F G H S T g h s t l r Ls Rs hg hh hs ht N hd rg rh hl hr ihl ihr =>
    have lG := cong_lc N.prod N.monic hd
    obtain ⟨i1, L0, Lt, rfl, i2, i3, i4⟩ := ihl
    obtain ⟨j1, R0, Rt, rfl, j2, j3, j4⟩ := ihr
    have mR := j1 N.monic
    refine ⟨fun hF => ?_, L0, Lt ++ (R0 :: Rt), rfl, ?_, ?_, fun _ => ?_⟩
    · have : G.Monic := monic_of_cong hm rg (by rwa [hF.leadingCoeff] at lG)
      intro L hL
      rcases List.mem_append.1 hL with h | h
      · exact i1 this L h
      · exact mR L h
    · intro L hL
      rcases List.mem_append.1 hL with h | h
      · exact i2 L h
      · exact mR L h
    · have : L0.leadingCoeff - F.leadingCoeff = (L0.leadingCoeff - G.leadingCoeff) + (G.leadingCoeff - F.leadingCoeff) := by ring
      rw [this]
      exact dvd_add i3 lG
    · intro L hL
      rcases List.mem_append.1 hL with h | h
      · generalize hRs : L0 :: Lt = Rs at *
        cases hl with
        | leaf => simp only [List.mem_singleton] at h; rw [h]; exact rg
        | node => exact i4 (by simp) L h
      · generalize hRs : R0 :: Rt = Rs at *
        cases hr with
        | leaf => simp only [List.mem_singleton] at h; rw [h]; exact rh
        | node => exact j4 (by simp) L h

theorem forall2_trans {α : Type*} {P Q R : α → α → Prop} (h : ∀ a b c, P a b → Q b c → R a c) {l m n : List α} (h1 : List.Forall₂ P l m) (h2 : List.Forall₂ Q m n) : List.Forall₂ R l n := by
  induction h1 generalizing n with
  | nil => cases h2; exact .nil
  | cons a _ ih => cases h2 with | cons b c => exact .cons (h _ _ _ a b) (ih c)

theorem liftTree_shape {m : ℤ} {f : UPoly ℤ} {T T' : HTree} (h : liftTree m f T = some T') (hT : T ≠ .leaf) : T' ≠ .leaf := by
  cases T with
  | leaf => exact absurd rfl hT
  | node g h s t l r =>
    simp only [liftTree, Option.bind_eq_some_iff, Option.map_eq_some_iff] at h
    obtain ⟨x, _, y, _, z, _, rfl⟩ := h
    simp

theorem liftLoop_spec {f : UPoly ℤ} {F : ℤ[X]} (hf : Is f F) (target : ℤ) : ∀ (fuel : Nat) (m : ℤ) (T : HTree) (Ls : List ℤ[X]), 1 < m → IsCoprime F.leadingCoeff m → TreeOK m F T Ls →
    T ≠ .leaf → target + 2 ≤ m + fuel → 0 < fuel → ∃ T' k Ls', liftLoop f target fuel m T = some (T', m ^ (2 ^ k)) ∧ TreeOK (m ^ (2 ^ k)) F T' Ls' ∧ T' ≠ .leaf ∧
      List.Forall₂ (fun L' L => Cong m L' L ∧ L'.natDegree = L.natDegree) Ls' Ls ∧ target < m ^ (2 ^ k) := by
  intro fuel
  induction fuel with
  | zero => intro m T Ls _ _ _ _ _ h; exact absurd h (lt_irrefl 0)
  | succ fuel ih =>
    intro m T Ls hm hc hT hn hfu _
    have e : liftLoop f target (fuel + 1) m T = if m ≤ target then (liftTree m f T).bind fun T' => liftLoop f target fuel (m * m) T' else some (T, m) := rfl
    rw [e]
    split
    · next hle =>
      obtain ⟨T1, L1, e1, e2, e3⟩ := liftTree_spec hm hT hf .rfl' rfl hc
      rw [e1, Option.bind_some]
      have mm : m + 1 ≤ m * m := by nlinarith
      push_cast at hfu
      obtain ⟨T2, k, L2, f1, f2, f3, f4, f5⟩ := ih (m * m) T1 L1 (by omega) (hc.mul_right hc) e2 (liftTree_shape e1 hn) (by omega) (by omega)
      have ek : (m * m) ^ (2 ^ k) = m ^ (2 ^ (k + 1)) := by rw [pow_succ 2 k, mul_comm (2 ^ k) 2, pow_mul, pow_two]
      rw [ek] at f1 f2 f5
      refine ⟨T2, k + 1, L2, f1, f2, f3, ?_, f5⟩
      exact forall2_trans (fun a b c h1 h2 => ⟨(h1.1.of_dvd (Dvd.intro _ rfl)).trans h2.1, h1.2.trans h2.2⟩) f4 e3
    · next hgt =>
      refine ⟨T, 0, Ls, by simp, by simpa using hT, hn, List.forall₂_same.2 fun _ _ => ⟨.rfl', rfl⟩, by simpa using hgt⟩

/-! ## construction -/

section build
variable {p : Nat} [hp : Fact p.Prime]

/-- lifting coefficients to `[0, p)` -/
theorem liftZp_is {f : UPoly (ZMod p)} {F : (ZMod p)[X]} (h : Is f F) : ∃ L : ℤ[X], Is (liftZp f) L ∧ L.map (Int.castRingHom (ZMod p)) = F ∧ Red p L ∧ L.natDegree = F.natDegree ∧
    (F.Monic → L.Monic) := by
  have pp := hp.out.one_lt
  have hc : Is (f.map fun t => (t.1, (t.2.val : ℤ))) (toPoly (f.map fun t => (t.1, (t.2.val : ℤ)))) := by
    apply is_of_canon
    refine ⟨List.pairwise_map.2 h.canon.1, ?_⟩
    intro x hx
    obtain ⟨y, hy, rfl⟩ := List.mem_map.1 hx
    have := h.canon.2 y hy
    show (y.2.val : ℤ) ≠ 0
    intro h0
    exact this ((ZMod.val_eq_zero _).1 (by exact_mod_cast h0))
  obtain ⟨L, hL⟩ : ∃ L, L = toPoly (f.map fun t => (t.1, (t.2.val : ℤ))) := ⟨_, rfl⟩
  rw [← hL] at hc
  have hco : ∀ i, L.coeff i = ((F.coeff i).val : ℤ) := by
    intro i
    by_cases hi : ∃ t ∈ f, t.1 = i
    · obtain ⟨t, ht, rfl⟩ := hi
      rw [coeff_mem h ht]
      exact coeff_mem hc (List.mem_map.2 ⟨t, ht, rfl⟩)
    · push Not at hi
      rw [coeff_not_mem h hi, coeff_not_mem hc]
      · simp
      · intro u hu
        obtain ⟨t, ht, rfl⟩ := List.mem_map.1 hu
        exact hi t ht
  have hmap : L.map (Int.castRingHom (ZMod p)) = F := by
    ext i
    rw [coeff_map, hco]
    simp
  have hdeg : L.natDegree = F.natDegree := by
    rw [← is_deg hc, ← is_deg h]
    cases f <;> rfl
  refine ⟨L, hc.norm, hmap, fun i => ?_, hdeg, fun hF => ?_⟩
  · rw [hco]
    exact ⟨by positivity, by exact_mod_cast ZMod.val_lt _⟩
  · rw [Monic, leadingCoeff, hdeg, hco, hF.coeff_natDegree, ZMod.val_one]
    rfl

theorem foldl_mul_is {l : List (UPoly (ZMod p))} {Ls : List (ZMod p)[X]} (h : List.Forall₂ Is l Ls) : ∀ {f : UPoly (ZMod p)} {F : (ZMod p)[X]}, Is f F → Is (l.foldl mul f) (F * Ls.prod) := by
  induction h with
  | nil => intro f F hf; simpa using hf
  | cons a _ ih =>
    intro f F hf
    rw [List.foldl_cons, List.prod_cons, ← mul_assoc]
    exact ih (mul_is hf a)

theorem prodZp_is {l : List (UPoly (ZMod p))} {Ls : List (ZMod p)[X]} (h : List.Forall₂ Is l Ls) (hn : l ≠ []) : Is (prodZp l) Ls.prod := by
  cases h with
  | nil => exact absurd rfl hn
  | cons a b => rw [List.prod_cons]; exact foldl_mul_is b a

theorem coprime_prod {A : (ZMod p)[X]} : ∀ {l : List (ZMod p)[X]}, (∀ B ∈ l, IsCoprime A B) → IsCoprime A l.prod
  | [], _ => by simpa using isCoprime_one_right
  | B :: l, h => by
    rw [List.prod_cons]
    exact (h B (by simp)).mul_right (coprime_prod fun C hC => h C (by simp [hC]))

theorem coprime_prod_prod {k l : List (ZMod p)[X]} (h : ∀ A ∈ k, ∀ B ∈ l, IsCoprime A B) : IsCoprime k.prod l.prod := by
  induction k with
  | nil => simpa using isCoprime_one_left
  | cons A k ih =>
    rw [List.prod_cons]
    exact (coprime_prod (h A (by simp))).mul_left (ih fun C hC => h C (by simp [hC]))

theorem monic_prod {l : List (ZMod p)[X]} (h : ∀ A ∈ l, A.Monic) : l.prod.Monic := by
  induction l with
  | nil => simpa using monic_one
  | cons A l ih => rw [List.prod_cons]; exact (h A (by simp)).mul (ih fun B hB => h B (by simp [hB]))

theorem treeBuild_spec : ∀ (fuel : Nat) (fs : List (UPoly (ZMod p))) (A : (ZMod p)[X]) (As : List (ZMod p)[X]) (F : ℤ[X]), fs.length ≤ fuel → 2 ≤ fs.length → List.Forall₂ Is fs (A :: As) → A ≠ 0 →
    (∀ B ∈ As, B.Monic) → (A :: As).Pairwise IsCoprime → F.map (Int.castRingHom (ZMod p)) = (A :: As).prod → F.natDegree = (A :: As).prod.natDegree →
    ∃ T Ls, treeBuild p fuel fs = some T ∧ T ≠ .leaf ∧ TreeOK p F T Ls ∧ List.Forall₂ (fun L B => L.map (Int.castRingHom (ZMod p)) = B ∧ L.natDegree = B.natDegree) Ls (A :: As) := by
  have pp := hp.out.one_lt
  intro fuel
  induction fuel with
  | zero => intro fs A As F h1 h2; omega
  | succ fuel ih =>
    intro fs A As F h1 h2 hF A0 hM hP hmap hdeg
    have hlen : fs.length = (A :: As).length := hF.length_eq
    obtain ⟨n, hn⟩ : ∃ n, n = fs.length / 2 := ⟨_, rfl⟩
    have n1 : 0 < n := by omega
    obtain ⟨n', rfl⟩ : ∃ n', n = n' + 1 := ⟨n - 1, by omega⟩
    -- the two halves
    have hl : List.Forall₂ Is (fs.take (n' + 1)) (A :: As.take n') := by
      have := List.forall₂_take (n' + 1) hF
      rwa [List.take_succ_cons] at this
    have hr : List.Forall₂ Is (fs.drop (n' + 1)) (As.drop n') := by
      have := List.forall₂_drop (n' + 1) hF
      rwa [List.drop_succ_cons] at this
    have hsplit : A :: As = (A :: As.take n') ++ As.drop n' := by simp
    have nl : fs.take (n' + 1) ≠ [] := by rw [Ne, List.take_eq_nil_iff]; push Not; exact ⟨by omega, fun h => by rw [h] at h2; simp at h2⟩
    have nr : fs.drop (n' + 1) ≠ [] := by rw [Ne, List.drop_eq_nil_iff]; omega
    have hl1 := prodZp_is hl nl
    have hr1 := prodZp_is hr nr
    obtain ⟨P, hPe⟩ : ∃ P, P = (A :: As.take n').prod := ⟨_, rfl⟩
    obtain ⟨Q, hQe⟩ : ∃ Q, Q = (As.drop n').prod := ⟨_, rfl⟩
    rw [← hPe] at hl1
    rw [← hQe] at hr1
    have hPQ : (A :: As).prod = P * Q := by rw [hPe, hQe, ← List.prod_append, ← hsplit]
    have Qm : Q.Monic := by rw [hQe]; exact monic_prod fun B hB => hM B (List.drop_subset _ _ hB)
    have P0 : P ≠ 0 := by
      rw [hPe, List.prod_cons]
      exact mul_ne_zero A0 (monic_prod fun B hB => hM B (List.take_subset _ _ hB)).ne_zero
    rw [hsplit, List.pairwise_append] at hP
    obtain ⟨pl, pr, plr⟩ := hP
    have hcop : IsCoprime P Q := by rw [hPe, hQe]; exact coprime_prod_prod plr
    obtain ⟨x, s, t, D, S, T, e1, e2, e3, e4, e5, e6, e7⟩ := extGcd_spec hl1 hr1 P0 Qm.ne_zero
    have D1 : D = 1 := by
      have : IsUnit D := hcop.isUnit_of_dvd' e6.1 e6.2.1
      exact e5.eq_one_of_isUnit this
    obtain ⟨G, g1, g2, g3, g4, g5⟩ := liftZp_is hl1
    obtain ⟨H, k1, k2, k3, k4, k5⟩ := liftZp_is hr1
    obtain ⟨S', s1, s2, _⟩ := liftZp_is e3
    obtain ⟨T', t1, t2, _⟩ := liftZp_is e4
    have N : Node p F.natDegree F G H S' T' := by
      refine ⟨?_, ?_, k5 Qm, le_rfl, ?_⟩
      · rw [Cong.iff_map, Polynomial.map_mul, g2, k2, hmap, hPQ]
      · rw [Cong.iff_map, Polynomial.map_add, Polynomial.map_mul, Polynomial.map_mul, g2, k2, s2, t2, e7, D1, Polynomial.map_one]
      · rw [g4, k4, hdeg, hPQ, natDegree_mul P0 Qm.ne_zero]
    have hd : G.natDegree + H.natDegree = F.natDegree := by rw [g4, k4, hdeg, hPQ, natDegree_mul P0 Qm.ne_zero]
    have ll : (fs.take (n' + 1)).length = n' + 1 := by rw [List.length_take]; omega
    have lr : (fs.drop (n' + 1)).length = fs.length - (n' + 1) := List.length_drop ..
    -- left
    obtain ⟨Tl, Ll, l1, l2, l3⟩ : ∃ Tl Ll, (if (fs.take (n' + 1)).length ≥ 2 then treeBuild p fuel (fs.take (n' + 1)) else some .leaf) = some Tl ∧ TreeOK p G Tl Ll ∧
        List.Forall₂ (fun L B => L.map (Int.castRingHom (ZMod p)) = B ∧ L.natDegree = B.natDegree) Ll (A :: As.take n') := by
      by_cases h : (fs.take (n' + 1)).length ≥ 2
      · rw [if_pos h]
        obtain ⟨T, Ls, a1, _, a2, a3⟩ := ih (fs.take (n' + 1)) A (As.take n') G (by omega) h hl A0 (fun B hB => hM B (List.take_subset _ _ hB)) pl (by rw [g2, hPe]) (by rw [g4, hPe])
        exact ⟨T, Ls, a1, a2, a3⟩
      · rw [if_neg h]
        have n0 : n' = 0 := by omega
        subst n0
        refine ⟨.leaf, [G], rfl, .leaf G, ?_⟩
        have hPA : P = A := by rw [hPe]; simp
        rw [List.take_zero]
        exact .cons ⟨g2.trans hPA, g4.trans (by rw [hPA])⟩ .nil
    -- right
    obtain ⟨Tr, Lr, r1, r2, r3⟩ : ∃ Tr Lr, (if (fs.drop (n' + 1)).length ≥ 2 then treeBuild p fuel (fs.drop (n' + 1)) else some .leaf) = some Tr ∧ TreeOK p H Tr Lr ∧
        List.Forall₂ (fun L B => L.map (Int.castRingHom (ZMod p)) = B ∧ L.natDegree = B.natDegree) Lr (As.drop n') := by
      obtain ⟨B, Bs, hBs⟩ : ∃ B Bs, As.drop n' = B :: Bs := by
        cases hh : As.drop n' with
        | nil => rw [hh] at hr; exact absurd (List.forall₂_nil_right_iff.1 hr) nr
        | cons B Bs => exact ⟨B, Bs, rfl⟩
      have mBs : ∀ C ∈ B :: Bs, C.Monic := fun C hC => hM C (List.drop_subset _ _ (hBs ▸ hC))
      rw [hBs] at hr pr hQe ⊢
      by_cases h : (fs.drop (n' + 1)).length ≥ 2
      · rw [if_pos h]
        obtain ⟨T, Ls, a1, _, a2, a3⟩ := ih (fs.drop (n' + 1)) B Bs H (by omega) h hr (mBs B (by simp)).ne_zero (fun C hC => mBs C (by simp [hC])) pr (by rw [k2, hQe]) (by rw [k4, hQe])
        exact ⟨T, Ls, a1, a2, a3⟩
      · rw [if_neg h]
        have hl0 := hr.length_eq
        have : Bs = [] := by
          cases Bs with
          | nil => rfl
          | cons _ _ => simp only [List.length_cons] at hl0; omega
        subst this
        have hQB : Q = B := by rw [hQe]; simp
        exact ⟨.leaf, [H], rfl, .leaf H, .cons ⟨k2.trans hQB, k4.trans (by rw [hQB])⟩ .nil⟩
    refine ⟨.node _ _ _ _ Tl Tr, Ll ++ Lr, ?_, by simp, .node g1 k1 s1 t1 N hd g3 k3 l2 r2, by rw [hsplit]; exact List.rel_append l3 r3⟩
    have e : treeBuild p (fuel + 1) fs = if fs.length < 2 then none else
      (extGcd (prodZp (fs.take (fs.length / 2))) (prodZp (fs.drop (fs.length / 2)))).bind fun x =>
      (if (fs.take (fs.length / 2)).length ≥ 2 then treeBuild p fuel (fs.take (fs.length / 2)) else some .leaf).bind fun tl =>
      (if (fs.drop (fs.length / 2)).length ≥ 2 then treeBuild p fuel (fs.drop (fs.length / 2)) else some .leaf).map fun tr =>
        .node (liftZp (prodZp (fs.take (fs.length / 2)))) (liftZp (prodZp (fs.drop (fs.length / 2)))) (liftZp x.2.1) (liftZp x.2.2) tl tr := rfl
    rw [e, if_neg (by omega), ← hn, e1, Option.bind_some, l1, Option.bind_some, r1, Option.map_some]

end build

end Upoly
end CLPoly
