import Verif.Real.Defs
import Verif.Props.MGcd
import Verif.Props.URoot
import Verif.Factor.Wrap
import Verif.Upoly.Select

/-! # `realroot(F)` is correct -/

namespace CLPoly
namespace RealRt
open Mono Mgcd Run
open Upoly (URoot UPoly uspenskyM Is toPoly Den)
open Polynomial

/-! ## integer polynomials over the rationals -/

/-- a rational polynomial is a multiple of a primitive integer polynomial by a constant -/
theorem exists_prim {D : ℚ[X]} (D0 : D ≠ 0) : ∃ P : ℤ[X], P.IsPrimitive ∧ Associated (P.map (Int.castRingHom ℚ)) D := by
  obtain ⟨A, n, n0, hA⟩ := Upoly.clear_den D
  have n0' : (n : ℚ) ≠ 0 := by exact_mod_cast n0
  have u : IsUnit (C (n : ℚ)) := isUnit_C.2 (isUnit_iff_ne_zero.2 n0')
  have A0 : A ≠ 0 := by
    rintro rfl
    rw [Polynomial.map_zero] at hA
    exact mul_ne_zero u.ne_zero D0 hA.symm
  have e : A = C A.content * A.primPart := A.eq_C_content_mul_primPart
  have u2 : IsUnit (C (A.content : ℚ)) := isUnit_C.2 (isUnit_iff_ne_zero.2 (by exact_mod_cast (content_eq_zero_iff.not.2 A0)))
  refine ⟨A.primPart, A.isPrimitive_primPart, ?_⟩
  have h1 : Associated (A.map (Int.castRingHom ℚ)) D := by rw [hA]; exact associated_unit_mul_left _ _ u
  have h2 : Associated (A.map (Int.castRingHom ℚ)) (A.primPart.map (Int.castRingHom ℚ)) := by
    conv_lhs => rw [e]
    rw [Polynomial.map_mul, map_C]
    exact associated_unit_mul_left _ _ u2
  exact h2.symm.trans h1

theorem map_ne {F : ℤ[X]} (h : F ≠ 0) : F.map (Int.castRingHom ℚ) ≠ 0 := (Polynomial.map_ne_zero_iff Int.cast_injective).2 h

theorem squarefree_rat {F : ℤ[X]} (hF : Squarefree F) : Squarefree (F.map (Int.castRingHom ℚ)) := by
  intro D hD
  have D0 : D ≠ 0 := by
    rintro rfl
    rw [zero_mul, zero_dvd_iff] at hD
    exact map_ne hF.ne_zero hD
  obtain ⟨P, pp, hP⟩ := exists_prim D0
  have : P * P ∣ F := by
    rw [IsPrimitive.Int.dvd_iff_map_cast_dvd_map_cast _ _ (pp.mul pp), Polynomial.map_mul]
    exact ((hP.mul_mul hP).dvd).trans hD
  exact hP.isUnit ((hF _ this).map (mapRingHom (Int.castRingHom ℚ)))

theorem coprime_rat {F G : ℤ[X]} (hF : F ≠ 0) (h : IsRelPrime F G) : IsCoprime (F.map (Int.castRingHom ℚ)) (G.map (Int.castRingHom ℚ)) := by
  rw [← isRelPrime_iff_isCoprime]
  intro D h1 h2
  have D0 : D ≠ 0 := by
    rintro rfl
    rw [zero_dvd_iff] at h1
    exact map_ne hF h1
  obtain ⟨P, pp, hP⟩ := exists_prim D0
  have d : ∀ {K : ℤ[X]}, D ∣ K.map (Int.castRingHom ℚ) → P ∣ K := fun {K} hK => by
    rw [IsPrimitive.Int.dvd_iff_map_cast_dvd_map_cast _ _ pp]
    exact hP.dvd.trans hK
  exact hP.isUnit ((h (d h1) (d h2)).map (mapRingHom (Int.castRingHom ℚ)))

/-! ## polynomials in one variable -/

theorem ret_squarefree {v : Var} {f : MvPolynomial Var ℤ} (hv : f.vars ⊆ {v}) (h : Squarefree f) : Squarefree (Factor.ret f) := by
  intro D hD
  have : Factor.emb v D * Factor.emb v D ∣ f := by
    rw [← Factor.emb_ret hv, ← map_mul]
    exact _root_.map_dvd _ hD
  have := (h _ this).map (Factor.ret (R := ℤ))
  rwa [Factor.ret_emb] at this

theorem ret_relPrime {v : Var} {f g : MvPolynomial Var ℤ} (hf : f.vars ⊆ {v}) (hg : g.vars ⊆ {v}) (h : IsRelPrime f g) : IsRelPrime (Factor.ret f) (Factor.ret g) := by
  intro D h1 h2
  have a : Factor.emb v D ∣ f := by
    rw [← Factor.emb_ret hf]; exact _root_.map_dvd _ h1
  have b : Factor.emb v D ∣ g := by
    rw [← Factor.emb_ret hg]; exact _root_.map_dvd _ h2
  have := (h a b).map (Factor.ret (R := ℤ))
  rwa [Factor.ret_emb] at this

/-- **specification**: a polynomial in at most one variable as a real polynomial -/
noncomputable def uni (f : MvPolynomial Var ℤ) : ℝ[X] := MvPolynomial.aeval (fun _ => (X : ℝ[X])) f

theorem uni_ret (f : MvPolynomial Var ℤ) : uni f = (Factor.ret f).map (Int.castRingHom ℝ) := by
  have : (MvPolynomial.aeval (fun _ : Var => (X : ℝ[X])) : MvPolynomial Var ℤ →ₐ[ℤ] ℝ[X]).toRingHom = (mapRingHom (Int.castRingHom ℝ)).comp Factor.ret := by
    refine MvPolynomial.ringHom_ext (fun c => ?_) fun v => ?_
    · simp [Factor.ret_C]
    · simp [Factor.ret_X]
  exact RingHom.congr_fun this f

theorem uni_eval (f : MvPolynomial Var ℤ) (x : ℝ) : (uni f).eval x = aeval x (Factor.ret f) := by
  rw [uni_ret, eval_map, aeval_def]; rfl

theorem uni_derivative (f : MvPolynomial Var ℤ) (x : ℝ) : (Polynomial.derivative (uni f)).eval x = aeval x (Polynomial.derivative (Factor.ret f)) := by
  rw [uni_ret, derivative_map, eval_map, aeval_def]; rfl

theorem uni_ne {v : Var} {f : MvPolynomial Var ℤ} (hv : f.vars ⊆ {v}) (h : f ≠ 0) : uni f ≠ 0 := by
  rw [uni_ret, Polynomial.map_ne_zero_iff Int.cast_injective]
  intro e
  refine h ?_
  rw [← Factor.emb_ret hv, e, map_zero]

/-! ## multiplicities -/

theorem mult_simple {P G : ℝ[X]} {x : ℝ} (hP : P.eval x ≠ 0) (hG : G.eval x = 0) (hd : (Polynomial.derivative G).eval x ≠ 0) (m : ℕ) : (P * G ^ m).rootMultiplicity x = m := by
  have P0 : P ≠ 0 := by rintro rfl; simp at hP
  have G0 : G ≠ 0 := by rintro rfl; simp at hd
  have h1 : G.rootMultiplicity x = 1 := by
    have a : 0 < G.rootMultiplicity x := (rootMultiplicity_pos G0).2 hG
    have b : ¬ 1 < G.rootMultiplicity x := fun h => hd ((one_lt_rootMultiplicity_iff_isRoot G0).1 h).2
    omega
  rw [rootMultiplicity_mul (mul_ne_zero P0 (pow_ne_zero m G0)), rootMultiplicity_eq_zero hP, zero_add]
  rw [← count_roots, roots_pow, Multiset.count_nsmul, count_roots, h1, mul_one]

theorem eval_prod_ne {l : List ℝ[X]} {x : ℝ} (h : ∀ p ∈ l, p.eval x ≠ 0) : l.prod.eval x ≠ 0 := by
  induction l with
  | nil => simp
  | cons p l ih =>
    rw [List.prod_cons, eval_mul]
    exact mul_ne_zero (h p (by simp)) (ih fun q hq => h q (by simp [hq]))

/-- a product of powers in which only the factor `j` vanishes at `x`, and simply -/
theorem mult_prod {B : List BElem} {c : ℝ} (c0 : c ≠ 0) {x : ℝ} {j : ℕ} {b : BElem} (hb : B[j]? = some b) (h0 : (uni (val b.1)).eval x = 0) (hd : (Polynomial.derivative (uni (val b.1))).eval x ≠ 0)
    (hne : ∀ i b', B[i]? = some b' → i ≠ j → (uni (val b'.1)).eval x ≠ 0) (e : BElem → ℕ) :
    (C c * (B.map fun b => uni (val b.1) ^ e b).prod).rootMultiplicity x = e b := by
  obtain ⟨hj, rfl⟩ := List.getElem?_eq_some_iff.1 hb
  have split : B = B.take j ++ B[j] :: B.drop (j + 1) := by simp
  have ep : (B.map fun b => uni (val b.1) ^ e b).prod =
      ((B.take j).map fun b => uni (val b.1) ^ e b).prod * (uni (val B[j].1) ^ e B[j] * ((B.drop (j + 1)).map fun b => uni (val b.1) ^ e b).prod) := by
    conv_lhs => rw [split]
    rw [List.map_append, List.prod_append, List.map_cons, List.prod_cons]
  have n1 : ∀ p ∈ (B.take j).map fun b => uni (val b.1) ^ e b, p.eval x ≠ 0 := by
    intro p hp
    obtain ⟨b', hb', rfl⟩ := List.mem_map.1 hp
    obtain ⟨i, hi, rfl⟩ := List.getElem_of_mem hb'
    rw [List.length_take] at hi
    rw [eval_pow]
    refine pow_ne_zero _ (hne i _ ?_ (by omega))
    rw [List.getElem_take]
    exact List.getElem?_eq_getElem _
  have n2 : ∀ p ∈ (B.drop (j + 1)).map fun b => uni (val b.1) ^ e b, p.eval x ≠ 0 := by
    intro p hp
    obtain ⟨b', hb', rfl⟩ := List.mem_map.1 hp
    obtain ⟨i, hi, rfl⟩ := List.getElem_of_mem hb'
    rw [List.length_drop] at hi
    rw [eval_pow]
    refine pow_ne_zero _ (hne (j + 1 + i) _ ?_ (by omega))
    rw [List.getElem_drop]
    exact List.getElem?_eq_getElem _
  have : C c * (B.map fun b => uni (val b.1) ^ e b).prod =
      (C c * ((B.take j).map fun b => uni (val b.1) ^ e b).prod * ((B.drop (j + 1)).map fun b => uni (val b.1) ^ e b).prod) * uni (val B[j].1) ^ e B[j] := by
    rw [ep]; ring
  rw [this]
  refine mult_simple ?_ h0 hd _
  rw [eval_mul, eval_mul, eval_C]
  exact mul_ne_zero (mul_ne_zero c0 (eval_prod_ne n1)) (eval_prod_ne n2)

/-! ## lists -/

theorem exists_forall2 {α β : Type*} {P : α → β → Prop} : ∀ {l : List α}, (∀ a ∈ l, ∃ b, P a b) → ∃ m, List.Forall₂ P l m
  | [], _ => ⟨[], .nil⟩
  | a :: l, h => by
    obtain ⟨b, hb⟩ := h a (by simp)
    obtain ⟨m, hm⟩ := exists_forall2 fun x hx => h x (List.mem_cons_of_mem _ hx)
    exact ⟨b :: m, .cons hb hm⟩

theorem forall2_mem_left {α β : Type*} {P : α → β → Prop} {l : List α} {m : List β} (h : List.Forall₂ P l m) : ∀ a ∈ l, ∃ b ∈ m, P a b := by
  induction h with
  | nil => simp
  | cons hab _ ih =>
    intro a ha
    rcases List.mem_cons.1 ha with rfl | ha
    · exact ⟨_, by simp, hab⟩
    · obtain ⟨b, hb, h⟩ := ih a ha
      exact ⟨b, by simp [hb], h⟩

theorem forall2_mem_right {α β : Type*} {P : α → β → Prop} {l : List α} {m : List β} (h : List.Forall₂ P l m) : ∀ b ∈ m, ∃ a ∈ l, P a b := by
  induction h with
  | nil => simp
  | cons hab _ ih =>
    intro b hb
    rcases List.mem_cons.1 hb with rfl | hb
    · exact ⟨_, by simp, hab⟩
    · obtain ⟨a, ha, h⟩ := ih b hb
      exact ⟨a, by simp [ha], h⟩

theorem forall2_pairwise {α β : Type*} {P : α → β → Prop} {Q : α → α → Prop} {S : β → β → Prop} (hS : ∀ a a' b b', P a b → P a' b' → Q a a' → S b b') {l : List α} {m : List β}
    (h : List.Forall₂ P l m) : l.Pairwise Q → m.Pairwise S := by
  induction h with
  | nil => simp
  | cons hab hr ih =>
    intro hp
    rw [List.pairwise_cons] at hp ⊢
    refine ⟨fun b' hb' => ?_, ih hp.2⟩
    obtain ⟨a', ha', h'⟩ := forall2_mem_right hr b' hb'
    exact hS _ _ _ _ hab h' (hp.1 a' ha')

theorem mem_varsOf {F : List (PV Mono ℤ)} {v : Var} : v ∈ varsOf F ↔ ∃ f ∈ F, v ∈ polyVars f := by
  unfold varsOf
  induction F with
  | nil => simp
  | cons f F ih => simp [ih]

/-! ## the function -/

/-- **specification**: `xs` are the real roots of the nonzero members of `Fs` in increasing order, and the entry of `I` for a root `x` consists of the pairs
(index of a polynomial, multiplicity of `x` in it) of the polynomials that vanish at `x`, each once -/
structure RootList (Fs : List ℝ[X]) (xs : List ℝ) (I : List (List (ℕ × ℕ))) : Prop where
  sorted : xs.Pairwise (· < ·)
  roots : ∀ x, x ∈ xs ↔ ∃ f ∈ Fs, f ≠ 0 ∧ f.eval x = 0
  mult : List.Forall₂ (fun x ms => (ms.map Prod.fst).Nodup ∧ ∀ k m, (k, m) ∈ ms ↔ 0 < m ∧ ∃ f, Fs[k]? = some f ∧ f.rootMultiplicity x = m) xs I

theorem multOf_nodup {I : List (ℕ × ℕ)} (h : (I.map Prod.fst).Nodup) {k m : ℕ} (hm : (k, m) ∈ I) : multOf k I = m := by
  unfold multOf
  induction I with
  | nil => simp at hm
  | cons x I ih =>
    rw [List.map_cons, List.nodup_cons] at h
    rcases List.mem_cons.1 hm with rfl | hm
    · have : (I.filter fun x => x.1 = k) = [] := List.filter_eq_nil_iff.2 fun y hy hk => by
        have hk : y.1 = k := by simpa using hk
        exact h.1 (List.mem_map.2 ⟨y, hy, hk⟩)
      rw [List.filter_cons_of_pos (by simp), this]; simp
    · have : x.1 ≠ k := fun e => h.1 (List.mem_map.2 ⟨(k, m), hm, e.symm⟩)
      rw [List.filter_cons_of_neg (by simpa using this)]
      exact ih h.2 hm

theorem multOf_pos {I : List (ℕ × ℕ)} {k : ℕ} (h : multOf k I ≠ 0) : ∃ m, (k, m) ∈ I := by
  by_contra hc
  push Not at hc
  refine h ?_
  unfold multOf
  rw [List.filter_eq_nil_iff.2 fun x hx hk => ?_]
  · rfl
  · have hk : x.1 = k := by simpa using hk
    exact hc x.2 (by rw [← hk]; exact hx)

variable {vc vc' : Var → Var → Bool} {mc' : Mono → Mono → Bool}

/-- the facts about the basis that the isolation needs -/
structure BasisOK (vc' : Var → Var → Bool) (mc' : Mono → Mono → Bool) (F : List (PV Mono ℤ)) (B : List BElem) : Prop where
  is : ∀ b ∈ B, Is (Factor.polyToUpoly b.1) (Factor.ret (val b.1))
  deg : ∀ b ∈ B, (Factor.ret (val b.1)).natDegree < 2 ^ 63 - 1
  sqf : ∀ b ∈ B, Squarefree ((Factor.ret (val b.1)).map (Int.castRingHom ℚ))
  cop : B.Pairwise fun a b => IsCoprime ((Factor.ret (val a.1)).map (Int.castRingHom ℚ)) ((Factor.ret (val b.1)).map (Int.castRingHom ℚ))
  recs : ∀ b ∈ B, b.2 ≠ [] ∧ (b.2.map Prod.fst).Nodup ∧ ∀ x ∈ b.2, 0 < x.2 ∧ ∃ hx : x.1 < F.length, uni (val F[x.1]) ≠ 0
  prod : ∀ (k : ℕ) (hk : k < F.length), uni (val F[k]) ≠ 0 → ∃ c : ℝ, c ≠ 0 ∧ uni (val F[k]) = C c * (B.map fun b => uni (val b.1) ^ multOf k b.2).prod

theorem BasisOK.ne {F : List (PV Mono ℤ)} {B : List BElem} (h : BasisOK vc' mc' F B) {b : BElem} (hb : b ∈ B) : Factor.ret (val b.1) ≠ 0 := by
  intro e
  have := h.sqf b hb
  rw [e] at this
  simp at this

/-- what an entry of the isolation says -/
structure Entry (B : List BElem) (e : ℕ × (ℚ × ℚ)) (x : ℝ) : Prop where
  ex : ∃ b, B[e.1]? = some b ∧ Den (URoot.mk' (Factor.polyToUpoly b.1) e.2.1 e.2.2) (x : EReal) ∧ (uni (val b.1)).eval x = 0 ∧ (Polynomial.derivative (uni (val b.1))).eval x ≠ 0 ∧
    (∀ i b', B[i]? = some b' → i ≠ e.1 → (uni (val b'.1)).eval x ≠ 0) ∧ ∀ y : ℝ, (e.2.1 : ℝ) ≤ y → y ≤ e.2.2 → (uni (val b.1)).eval y = 0 → y = x
  lo : (e.2.1 : ℝ) ≤ x
  hi : x ≤ e.2.2

theorem isolate {F : List (PV Mono ℤ)} {B : List BElem} (hB : BasisOK vc' mc' F B) {ufuel : ℕ} {l : List (ℕ × (ℚ × ℚ))}
    (hl : uspenskyM ufuel (B.map fun b => Factor.polyToUpoly b.1) = some l) :
    (∀ e ∈ l, ∃ x, Entry B e x) ∧ l.Pairwise (fun e e' => e.2.2 < e'.2.1) ∧
      ∀ j b, B[j]? = some b → ∀ x : ℝ, (uni (val b.1)).eval x = 0 → ∃ e ∈ l, e.1 = j ∧ (e.2.1 : ℝ) ≤ x ∧ x ≤ e.2.2 := by
  have get : ∀ j g, (B.map fun b => Factor.polyToUpoly b.1)[j]? = some g ↔ ∃ b : BElem, B[j]? = some b ∧ Factor.polyToUpoly b.1 = g := fun j g => by
    rw [List.getElem?_map, Option.map_eq_some_iff]
  have tp : ∀ b ∈ B, toPoly (Factor.polyToUpoly b.1) = Factor.ret (val b.1) := fun b hb => (hB.is b hb).eq
  have hc : ∀ g ∈ B.map fun b => Factor.polyToUpoly b.1, Is g (toPoly g) := by
    intro g hg
    obtain ⟨b, hb, rfl⟩ := List.mem_map.1 hg
    rw [tp b hb]; exact hB.is b hb
  have h0 : ∀ g ∈ B.map fun b => Factor.polyToUpoly b.1, toPoly g ≠ 0 := by
    intro g hg
    obtain ⟨b, hb, rfl⟩ := List.mem_map.1 hg
    rw [tp b hb]; exact hB.ne hb
  have hco : (B.map fun b => Factor.polyToUpoly b.1).Pairwise fun g h => IsCoprime ((toPoly g).map (Int.castRingHom ℚ)) ((toPoly h).map (Int.castRingHom ℚ)) := by
    rw [List.pairwise_map]
    refine hB.cop.imp_of_mem fun {a b} ha hb hab => ?_
    rw [tp a ha, tp b hb]; exact hab
  have hs : ∀ g ∈ B.map fun b => Factor.polyToUpoly b.1, Squarefree ((toPoly g).map (Int.castRingHom ℚ)) := by
    intro g hg
    obtain ⟨b, hb, rfl⟩ := List.mem_map.1 hg
    rw [tp b hb]; exact hB.sqf b hb
  have hdeg : ∀ g ∈ B.map fun b => Factor.polyToUpoly b.1, (toPoly g).natDegree < 2 ^ 63 - 1 := by
    intro g hg
    obtain ⟨b, hb, rfl⟩ := List.mem_map.1 hg
    rw [tp b hb]; exact hB.deg b hb
  obtain ⟨u1, u2, u3⟩ := C36_uspensky_list hc h0 hco hl
  refine ⟨fun e he => ?_, u2, fun j b hb x hx => ?_⟩
  · obtain ⟨g, x, hg, hden, hx⟩ := C57_from_isolation hc hdeg hco hs hl e he
    obtain ⟨g', hg', ⟨y, ⟨y1, y2, y3⟩, yu⟩, _, hoth⟩ := u1 e he
    rw [hg] at hg'
    cases hg'
    obtain ⟨b, hb, rfl⟩ := (get _ _).1 hg
    have hbm := List.mem_of_getElem? hb
    -- the number the object stands for lies in the interval
    have hxi : (e.2.1 : ℝ) ≤ x ∧ x ≤ e.2.2 := by
      rcases hden with ⟨h, _⟩ | ⟨h, _⟩ | ⟨x', ex, h⟩
      · exact absurd h (by simp [URoot.mk'])
      · exact absurd h (by simp [URoot.mk'])
      · have : x = x' := by exact_mod_cast ex
        subst this
        rcases h.loc with ⟨h1, h2⟩ | ⟨h1, h2, _⟩
        · exact ⟨le_of_eq h1, le_of_eq h2.symm⟩
        · exact ⟨h1.le, h2.le⟩
    have hev : ∀ z : ℝ, (uni (val b.1)).eval z = aeval z (toPoly (Factor.polyToUpoly b.1)) := fun z => by rw [uni_eval, tp b hbm]
    refine ⟨x, ⟨b, hb, hden, by rw [hev]; exact hx, ?_, fun i b' hb' hne => ?_, fun z z1 z2 z3 => ?_⟩, hxi.1, hxi.2⟩
    · rw [uni_derivative]
      exact squarefree_no_multiple (hB.sqf b hbm) x (by rw [← tp b hbm]; exact hx)
    · have := hoth i _ ((get i _).2 ⟨b', hb', rfl⟩) hne x hxi.1 hxi.2
      rw [uni_eval, ← tp b' (List.mem_of_getElem? hb')]; exact this
    · rw [hev] at z3
      rw [yu z ⟨z1, z2, z3⟩, yu x ⟨hxi.1, hxi.2, hx⟩]
  · refine u3 j _ ((get j _).2 ⟨b, hb, rfl⟩) x ?_
    rw [tp b (List.mem_of_getElem? hb), ← uni_eval]; exact hx

theorem eval_prod_zero {l : List ℝ[X]} {x : ℝ} (h : l.prod.eval x = 0) : ∃ p ∈ l, p.eval x = 0 := by
  by_contra hc
  push Not at hc
  exact eval_prod_ne hc h

theorem rootList_of {F : List (PV Mono ℤ)} {B : List BElem} (hB : BasisOK vc' mc' F B) {l : List (ℕ × (ℚ × ℚ))} {ufuel : ℕ}
    (hl : uspenskyM ufuel (B.map fun b => Factor.polyToUpoly b.1) = some l) :
    ∃ xs : List ℝ, List.Forall₂ (fun (r : URoot) (x : ℝ) => Den r (x : EReal)) (l.map fun e => URoot.mk' ((B.map fun b => Factor.polyToUpoly b.1).getD e.1 []) e.2.1 e.2.2) xs ∧
      RootList (F.map fun f => uni (val f)) xs (l.map fun e => (B.map fun b => b.2).getD e.1 []) := by
  obtain ⟨h1, h2, h3⟩ := isolate hB hl
  obtain ⟨xs, hxs⟩ := exists_forall2 h1
  have gf : ∀ k f, (F.map fun f => uni (val f))[k]? = some f ↔ ∃ hk : k < F.length, uni (val F[k]) = f := fun k f => by
    rw [List.getElem?_map, Option.map_eq_some_iff]
    constructor
    · rintro ⟨g, hg, rfl⟩
      obtain ⟨hk, rfl⟩ := List.getElem?_eq_some_iff.1 hg
      exact ⟨hk, rfl⟩
    · rintro ⟨hk, rfl⟩
      exact ⟨F[k], List.getElem?_eq_getElem hk, rfl⟩
  -- the multiplicity of an entry in an input
  have hmul : ∀ (e : ℕ × (ℚ × ℚ)) (x : ℝ) (b : BElem), B[e.1]? = some b → (uni (val b.1)).eval x = 0 → (Polynomial.derivative (uni (val b.1))).eval x ≠ 0 →
      (∀ i b', B[i]? = some b' → i ≠ e.1 → (uni (val b'.1)).eval x ≠ 0) → ∀ (k : ℕ) (hk : k < F.length), uni (val F[k]) ≠ 0 → (uni (val F[k])).rootMultiplicity x = multOf k b.2 := by
    intro e x b hb e1 e2 e3 k hk h0
    obtain ⟨c, c0, hc⟩ := hB.prod k hk h0
    rw [hc]
    exact mult_prod c0 hb e1 e2 e3 fun b => multOf k b.2
  refine ⟨xs, ?_, ?_, ?_, ?_⟩
  · rw [List.forall₂_map_left_iff]
    refine hxs.imp fun e x h => ?_
    obtain ⟨b, hb, hden, _⟩ := h.ex
    rw [List.getD_eq_getElem?_getD, List.getElem?_map, hb]
    exact hden
  · refine forall2_pairwise (fun e e' x x' a b hq => ?_) hxs h2
    exact lt_of_le_of_lt a.hi (lt_of_lt_of_le (by exact_mod_cast hq) b.lo)
  · intro x
    constructor
    · intro hx
      obtain ⟨e, _, he⟩ := forall2_mem_right hxs x hx
      obtain ⟨b, hb, _, e1, e2, e3, _⟩ := he.ex
      obtain ⟨r1, r2, r3⟩ := hB.recs b (List.mem_of_getElem? hb)
      obtain ⟨y, I, hI⟩ := List.exists_cons_of_ne_nil r1
      have hy : y ∈ b.2 := by rw [hI]; simp
      obtain ⟨y0, hk, f0⟩ := r3 y hy
      refine ⟨uni (val F[y.1]), List.mem_map.2 ⟨F[y.1], List.getElem_mem hk, rfl⟩, f0, ?_⟩
      have := hmul e x b hb e1 e2 e3 y.1 hk f0
      rw [multOf_nodup r2 (show (y.1, y.2) ∈ b.2 from hy)] at this
      exact (rootMultiplicity_pos f0).1 (by omega)
    · rintro ⟨f, hf, f0, hfx⟩
      obtain ⟨g, hg, rfl⟩ := List.mem_map.1 hf
      obtain ⟨k, hk, rfl⟩ := List.getElem_of_mem hg
      obtain ⟨c, c0, hc⟩ := hB.prod k hk f0
      rw [hc, eval_mul, eval_C] at hfx
      obtain ⟨p, hp, hpx⟩ := eval_prod_zero ((mul_eq_zero.1 hfx).resolve_left c0)
      obtain ⟨b, hb, rfl⟩ := List.mem_map.1 hp
      rw [eval_pow] at hpx
      have hbx := eq_zero_of_pow_eq_zero hpx
      obtain ⟨j, hj, rfl⟩ := List.getElem_of_mem hb
      obtain ⟨e, he, ej, e1, e2⟩ := h3 j B[j] (List.getElem?_eq_getElem hj) x hbx
      obtain ⟨x', hx', hE⟩ := forall2_mem_left hxs e he
      obtain ⟨b', hb', _, _, _, _, hu⟩ := hE.ex
      rw [ej, List.getElem?_eq_getElem hj] at hb'
      cases hb'
      rw [hu x e1 e2 hbx]; exact hx'
  · rw [List.forall₂_map_right_iff]
    refine hxs.flip.imp fun x e h => ?_
    obtain ⟨b, hb, _, e1, e2, e3, _⟩ := h.ex
    rw [List.getD_eq_getElem?_getD, List.getElem?_map, hb]
    show (b.2.map Prod.fst).Nodup ∧ ∀ k m, (k, m) ∈ b.2 ↔ _
    obtain ⟨r1, r2, r3⟩ := hB.recs b (List.mem_of_getElem? hb)
    refine ⟨r2, fun k m => ⟨fun hkm => ?_, ?_⟩⟩
    · obtain ⟨m0, hk, f0⟩ := r3 _ hkm
      refine ⟨m0, _, (gf k _).2 ⟨hk, rfl⟩, ?_⟩
      rw [hmul e x b hb e1 e2 e3 k hk f0, multOf_nodup r2 hkm]
    · rintro ⟨m0, f, hf, hm⟩
      obtain ⟨hk, rfl⟩ := (gf k f).1 hf
      have f0 : uni (val F[k]) ≠ 0 := fun h0 => by rw [h0, rootMultiplicity_zero] at hm; omega
      rw [hmul e x b hb e1 e2 e3 k hk f0] at hm
      obtain ⟨m', hm'⟩ := multOf_pos (k := k) (I := b.2) (by omega)
      rw [multOf_nodup r2 hm'] at hm
      rw [← hm]; exact hm'

end RealRt
end CLPoly
