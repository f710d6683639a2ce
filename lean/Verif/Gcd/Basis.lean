import Verif.Gcd.SqfSpec

/-! # `squarefreebasis` is correct -/

namespace CLPoly
namespace Mgcd
open Mono MvPolynomial Run
open Dense (IsGcd)

variable {vc : Var → Var → Bool} {V : Finset Var} {N : ℕ} {gcd : PV Mono ℤ → PV Mono ℤ → Run (PV Mono ℤ)}

/-- the multiplicity recorded for the input `k` -/
def multOf (k : ℕ) (I : List (ℕ × ℕ)) : ℕ := ((I.filter fun x => x.1 = k).map Prod.snd).sum

/-- the product of the basis elements with the multiplicities recorded for the input `k` -/
noncomputable def basisProd (k : ℕ) (B : List BElem) : MvPolynomial Var ℤ := (B.map fun b => val b.1 ^ multOf k b.2).prod

/-- how often `P` occurs in all elements together -/
noncomputable def totNu (P : MvPolynomial Var ℤ) (B : List BElem) : ℕ := (B.map fun b => nu P (val b.1)).sum

/-- not zero, and only units among the constants divide it -/
def PC (f : MvPolynomial Var ℤ) : Prop := f ≠ 0 ∧ ∀ e : MvPolynomial Var ℤ, e.vars = ∅ → e ∣ f → IsUnit e

theorem PC.of_dvd {f g : MvPolynomial Var ℤ} (h : PC f) (hd : g ∣ f) : PC g :=
  ⟨fun e => h.1 (by rw [e] at hd; exact zero_dvd_iff.1 hd), fun e he hd' => h.2 e he (hd'.trans hd)⟩

def BOK (vc : Var → Var → Bool) (V : Finset Var) (N : ℕ) (B : List BElem) : Prop := ∀ b ∈ B, In vc V N b.1 ∧ PC (val b.1)

def Tags (i : ℕ) (B : List BElem) : Prop := ∀ b ∈ B, ∀ x ∈ b.2, x.1 < i

theorem basisProd_nil (k : ℕ) : basisProd k [] = 1 := rfl
theorem basisProd_cons (k : ℕ) (b : BElem) (B : List BElem) : basisProd k (b :: B) = val b.1 ^ multOf k b.2 * basisProd k B := by simp [basisProd]
theorem basisProd_append (k : ℕ) (A B : List BElem) : basisProd k (A ++ B) = basisProd k A * basisProd k B := by simp [basisProd]
theorem totNu_cons (P : MvPolynomial Var ℤ) (b : BElem) (B : List BElem) : totNu P (b :: B) = nu P (val b.1) + totNu P B := by simp [totNu]
theorem totNu_append (P : MvPolynomial Var ℤ) (A B : List BElem) : totNu P (A ++ B) = totNu P A + totNu P B := by simp [totNu]

theorem multOf_snoc (k i m : ℕ) (I : List (ℕ × ℕ)) : multOf k (I ++ [(i, m)]) = multOf k I + if i = k then m else 0 := by
  unfold multOf
  rw [List.filter_append, List.map_append, List.sum_append]
  congr 1
  by_cases h : i = k <;> simp [h]

theorem multOf_zero {k : ℕ} {I : List (ℕ × ℕ)} (h : ∀ x ∈ I, x.1 < k) : multOf k I = 0 := by
  unfold multOf
  rw [List.filter_eq_nil_iff.2 fun x hx => by have := h x hx; simp; omega]
  rfl

theorem basisProd_tags {k : ℕ} {B : List BElem} (h : Tags k B) : basisProd k B = 1 := by
  induction B with
  | nil => rfl
  | cons b B ih => rw [basisProd_cons, multOf_zero (h b (by simp)), pow_zero, one_mul, ih fun b hb => h b (by simp [hb])]

/-- the result of `splitPart` -/
structure SplitOut (vc : Var → Var → Bool) (V : Finset Var) (N : ℕ) (i m : ℕ) (lst : List BElem) (tmp : PV Mono ℤ) (l n : List BElem) (t : PV Mono ℤ) : Prop where
  okl : BOK vc V N l
  okn : BOK vc V N n
  okt : In vc V N t
  dvd : val t ∣ val tmp
  tot : ∀ P, Prime P → totNu P l + totNu P n = totNu P lst
  left : ∀ P, Prime P → totNu P lst ≤ 1 → nu P (val tmp) ≤ 1 → nu P (val t) = nu P (val tmp) - totNu P lst
  new : ∀ b ∈ n, val b.1 ∣ val tmp
  other : ∀ k, k ≠ i → basisProd k l * basisProd k n = basisProd k lst
  self : basisProd i l * basisProd i n * val t ^ m = basisProd i lst * val tmp ^ m
  tagl : Tags (i + 1) lst → Tags (i + 1) (l ++ n)

theorem splitPart_spec (ho : VarOrd vc) (hS : Small V N) (hg : GSpec vc V N gcd) (dfuel i m : ℕ) : ∀ (lst : List BElem) (tmp : PV Mono ℤ), BOK vc V N lst → In vc V N tmp → PC (val tmp) →
    Post (splitPart vc gcd dfuel i m lst tmp) fun r => SplitOut vc V N i m lst tmp r.1 r.2.1 r.2.2 := by
  intro lst
  induction lst with
  | nil =>
    intro tmp _ ht pt
    refine Post.ret ⟨by simp [BOK], by simp [BOK], ht, dvd_rfl, fun P _ => rfl, fun P _ _ _ => by simp [totNu], by simp, fun k _ => by simp [basisProd], by simp [basisProd], ?_⟩
    intro _; simp [Tags]
  | cons b l ih =>
    intro tmp hB ht pt
    obtain ⟨hb, pb⟩ := hB b (by simp)
    have hl : BOK vc V N l := fun x hx => hB x (by simp [hx])
    unfold splitPart
    refine (hg b.1 tmp hb ht).bind fun F1 hF1 => ?_
    obtain ⟨in1, g1⟩ := hF1
    have nuF : ∀ P, Prime P → ∀ k, k ≤ nu P (val F1) ↔ k ≤ nu P (val b.1) ∧ k ≤ nu P (val tmp) := fun P hP k => by
      have F10 : val F1 ≠ 0 := (pb.of_dvd g1.1).1
      rw [← pow_dvd_iff_nu hP F10, ← pow_dvd_iff_nu hP pb.1, ← pow_dvd_iff_nu hP pt.1]
      exact ⟨fun h => ⟨h.trans g1.1, h.trans g1.2.1⟩, fun h => g1.2.2 _ h.1 h.2⟩
    refine Post.ite (fun hn => ?_) fun hn => ?_
    · -- coprime
      have hu : IsUnit (val F1) := (pb.of_dvd g1.1).2 _ ((number_of_vars ho in1.ok).1 hn) dvd_rfl
      refine (ih tmp hl ht pt).bind fun r hr => Post.ret ?_
      refine ⟨fun x hx => ?_, hr.okn, hr.okt, hr.dvd, fun P hP => ?_, fun P hP h1 h2 => ?_, hr.new, fun k hk => ?_, ?_, fun htag x hx => ?_⟩
      · rcases List.mem_cons.1 hx with rfl | hx
        · exact ⟨hb, pb⟩
        · exact hr.okl x hx
      · dsimp only
        rw [totNu_cons, totNu_cons, ← hr.tot P hP]; omega
      · rw [totNu_cons] at h1 ⊢
        rw [hr.left P hP (by omega) h2]
        have h3 := nuF P hP 1
        rw [nu_unit hP hu] at h3
        omega
      · rw [basisProd_cons, basisProd_cons, ← hr.other k hk]; ring
      · rw [basisProd_cons, basisProd_cons, mul_assoc, mul_assoc, ← mul_assoc (basisProd i r.1), hr.self, mul_assoc]
      · rw [List.cons_append] at hx
        rcases List.mem_cons.1 hx with rfl | hx
        · exact htag _ (by simp)
        · exact hr.tagl (fun y hy => htag y (by simp [hy])) x hx
    · refine (Post.lift fun q hq => quoZ_dvd ho hS ht pt.1 in1 g1.2.1 hq).bind fun tmp' ht' => ?_
      obtain ⟨it', et'⟩ := ht'
      have dt' : val tmp' ∣ val tmp := et' ▸ dvd_mul_right _ _
      have pt' := pt.of_dvd dt'
      have F10 : val F1 ≠ 0 := (pb.of_dvd g1.1).1
      -- the element that replaces `b` and the new one
      refine (Post.ite (Q := fun x : BElem × List BElem => BOK vc V N (x.1 :: x.2) ∧ (∀ P, Prime P → nu P (val x.1.1) + totNu P x.2 = nu P (val b.1)) ∧ (∀ y ∈ x.2, val y.1 ∣ val tmp) ∧
        (∀ k, k ≠ i → basisProd k [x.1] * basisProd k x.2 = val b.1 ^ multOf k b.2) ∧ basisProd i [x.1] * basisProd i x.2 = val b.1 ^ multOf i b.2 * val F1 ^ m ∧
        (Tags (i + 1) [b] → Tags (i + 1) (x.1 :: x.2))) (fun hne => ?_) fun heq => ?_).bind fun x hx => ?_
      · refine (Post.lift fun q hq => quoZ_dvd ho hS hb pb.1 in1 g1.1 hq).bind fun b1 hb1 => Post.ret ?_
        obtain ⟨ib, eb⟩ := hb1
        have b10 : val b1 ≠ 0 := fun e => pb.1 (by rw [eb, e, zero_mul])
        refine ⟨fun x hx => ?_, fun P hP => ?_, fun y hy => ?_, fun k hk => ?_, ?_, fun htag x hx => ?_⟩
        · simp only [List.mem_cons, List.not_mem_nil, or_false] at hx
          rcases hx with rfl | rfl
          · exact ⟨ib, pb.of_dvd (eb ▸ dvd_mul_right _ _)⟩
          · exact ⟨in1, pb.of_dvd g1.1⟩
        · simp only [totNu, List.map_cons, List.map_nil, List.sum_cons, List.sum_nil, add_zero]
          rw [eb, nu_mul hP b10 F10]
        · rw [List.mem_singleton] at hy; rw [hy]; exact g1.2.1
        · simp only [basisProd, List.map_cons, List.map_nil, List.prod_cons, List.prod_nil, mul_one, multOf_snoc]
          rw [if_neg (Ne.symm hk), add_zero, ← mul_pow, ← eb]
        · simp only [basisProd, List.map_cons, List.map_nil, List.prod_cons, List.prod_nil, mul_one, multOf_snoc]
          rw [if_true, pow_add, ← mul_assoc, ← mul_pow, ← eb]
        · have hbt := htag b (by simp)
          simp only [List.mem_cons, List.not_mem_nil, or_false] at hx
          rcases hx with rfl | rfl
          · exact hbt
          · intro y hy
            rcases List.mem_append.1 hy with hy | hy
            · exact hbt y hy
            · rw [List.mem_singleton] at hy; rw [hy]; exact Nat.lt_succ_self i
      · have heq : F1 = b.1 := by simpa using heq
        refine Post.ret ⟨fun x hx => ?_, fun P hP => ?_, by simp, fun k hk => ?_, ?_, fun htag x hx => ?_⟩
        · rw [List.mem_singleton] at hx; rw [hx]; exact ⟨hb, pb⟩
        · simp [totNu]
        · simp only [basisProd, List.map_cons, List.map_nil, List.prod_cons, List.prod_nil, mul_one, multOf_snoc]
          rw [if_neg (Ne.symm hk), add_zero]
        · simp only [basisProd, List.map_cons, List.map_nil, List.prod_cons, List.prod_nil, mul_one, multOf_snoc]
          rw [if_true, pow_add, heq]
        · have hbt := htag b (by simp)
          rw [List.mem_singleton] at hx
          rw [hx]
          intro y hy
          rcases List.mem_append.1 hy with hy | hy
          · exact hbt y hy
          · rw [List.mem_singleton] at hy; rw [hy]; exact Nat.lt_succ_self i
      obtain ⟨x1, x2, x3, x4, x5, x6⟩ := hx
      have one : ∀ (k : ℕ) (y : BElem), basisProd k [y] = val y.1 ^ multOf k y.2 := fun k y => by simp [basisProd]
      simp only [one] at x4 x5
      have hnt : ∀ P, Prime P → nu P (val tmp) = nu P (val tmp') + nu P (val F1) := fun P hP => by rw [et', nu_mul hP pt'.1 F10]
      refine Post.ite (fun hnum => Post.ret ?_) fun hnum => ?_
      · have hu : IsUnit (val tmp') := pt'.2 _ ((number_of_vars ho it'.ok).1 hnum) dvd_rfl
        refine ⟨fun y hy => ?_, fun y hy => x1 y (by simp [hy]), it', dt', fun P hP => ?_, fun P hP h1 h2 => ?_, x3, fun k hk => ?_, ?_, fun htag y hy => ?_⟩
        · rcases List.mem_cons.1 hy with rfl | hy
          · exact x1 _ (by simp)
          · exact hl y hy
        · have := x2 P hP
          dsimp only
          rw [totNu_cons, totNu_cons]; omega
        · have h3 := nuF P hP 1
          have h4 := hnt P hP
          rw [nu_unit hP hu] at h4 ⊢
          rw [totNu_cons]
          omega
        · rw [basisProd_cons, basisProd_cons, ← x4 k hk]; ring
        · rw [basisProd_cons, basisProd_cons, et', mul_pow]
          calc val x.1.1 ^ multOf i x.1.2 * basisProd i l * basisProd i x.2 * val tmp' ^ m = (val x.1.1 ^ multOf i x.1.2 * basisProd i x.2) * basisProd i l * val tmp' ^ m := by ring
            _ = _ := by rw [x5]; ring
        · have hbt : Tags (i + 1) [b] := fun z hz => htag z (by rw [List.mem_singleton] at hz; simp [hz])
          simp only [List.cons_append, List.mem_cons, List.mem_append] at hy
          rcases hy with rfl | hy | hy
          · exact x6 hbt _ (by simp)
          · exact htag y (by simp [hy])
          · exact x6 hbt y (by simp [hy])
      · refine (ih tmp' hl it' pt').bind fun r hr => Post.ret ?_
        refine ⟨fun y hy => ?_, fun y hy => ?_, hr.okt, hr.dvd.trans dt', fun P hP => ?_, fun P hP h1 h2 => ?_, fun y hy => ?_, fun k hk => ?_, ?_, fun htag y hy => ?_⟩
        · rcases List.mem_cons.1 hy with rfl | hy
          · exact x1 _ (by simp)
          · exact hr.okl y hy
        · rcases List.mem_append.1 hy with hy | hy
          · exact x1 y (by simp [hy])
          · exact hr.okn y hy
        · have h3 := x2 P hP
          have h4 := hr.tot P hP
          rw [totNu_cons, totNu_cons, totNu_append]; omega
        · have h3 := nuF P hP 1
          have h4 := hnt P hP
          rw [totNu_cons] at h1 ⊢
          rw [hr.left P hP (by omega) (by omega)]
          omega
        · rcases List.mem_append.1 hy with hy | hy
          · exact x3 y hy
          · exact (hr.new y hy).trans dt'
        · rw [basisProd_cons, basisProd_cons, basisProd_append, ← x4 k hk, ← hr.other k hk]; ring
        · have h5 := hr.self
          rw [basisProd_cons, basisProd_cons, basisProd_append, et', mul_pow]
          calc val x.1.1 ^ multOf i x.1.2 * basisProd i r.1 * (basisProd i x.2 * basisProd i r.2.1) * val r.2.2 ^ m
              = (val x.1.1 ^ multOf i x.1.2 * basisProd i x.2) * (basisProd i r.1 * basisProd i r.2.1 * val r.2.2 ^ m) := by ring
            _ = _ := by rw [x5, h5]; ring
        · have hbt : Tags (i + 1) [b] := fun z hz => htag z (by rw [List.mem_singleton] at hz; simp [hz])
          have hlt : Tags (i + 1) l := fun z hz => htag z (by simp [hz])
          simp only [List.cons_append, List.mem_cons, List.mem_append] at hy
          rcases hy with rfl | hy | hy | hy
          · exact x6 hbt _ (by simp)
          · exact hr.tagl hlt y (List.mem_append_left _ hy)
          · exact x6 hbt y (by simp [hy])
          · exact hr.tagl hlt y (List.mem_append_right _ hy)

theorem totNu_zero_of {P : MvPolynomial Var ℤ} (hP : Prime P) {B : List BElem} (hB : BOK vc V N B) (h : ∀ b ∈ B, ¬ P ∣ val b.1) : totNu P B = 0 := by
  induction B with
  | nil => rfl
  | cons b B ih =>
    rw [totNu_cons, nu_zero_of_not_dvd hP (hB b (by simp)).2.1 (h b (by simp)), zero_add, ih (fun x hx => hB x (by simp [hx])) fun x hx => h x (by simp [hx])]

theorem splitParts_spec (ho : VarOrd vc) (hS : Small V N) (hg : GSpec vc V N gcd) (dfuel i : ℕ) : ∀ (hs : List (PV Mono ℤ × ℕ)) (lst lst' : List BElem),
    BOK vc V N lst → BOK vc V N lst' → (∀ h ∈ hs, In vc V N h.1 ∧ PC (val h.1) ∧ Squarefree (val h.1)) → (hs.Pairwise fun a b => IsRelPrime (val a.1) (val b.1)) →
    (∀ P, Prime P → totNu P lst + totNu P lst' ≤ 1) → (∀ P, Prime P → (∃ h ∈ hs, P ∣ val h.1) → totNu P lst' = 0) → Tags (i + 1) (lst ++ lst') →
    Post (splitParts vc gcd dfuel i hs lst lst') fun r => BOK vc V N (r.1 ++ r.2) ∧ (∀ P, Prime P → totNu P (r.1 ++ r.2) ≤ 1) ∧ Tags (i + 1) (r.1 ++ r.2) ∧
      (∀ k, k ≠ i → basisProd k (r.1 ++ r.2) = basisProd k (lst ++ lst')) ∧ ∃ u : MvPolynomial Var ℤ, IsUnit u ∧ basisProd i (r.1 ++ r.2) * u = basisProd i (lst ++ lst') * prodPow hs := by
  intro hs
  induction hs with
  | nil =>
    intro lst lst' h1 h2 _ _ h3 _ h4
    refine Post.ret ⟨fun b hb => (List.mem_append.1 hb).elim (h1 b) (h2 b), fun P hP => by rw [totNu_append]; exact h3 P hP, h4, fun k _ => rfl, 1, isUnit_one, by simp [prodPow]⟩
  | cons h hs ih =>
    intro lst lst' h1 h2 hh hpw h3 h4 h5
    obtain ⟨hin, hpc, hsq⟩ := hh h (by simp)
    unfold splitParts
    refine (splitPart_spec ho hS hg dfuel i h.2 lst h.1 h1 hin hpc).bind fun r hr => ?_
    obtain ⟨l, n, t⟩ := r
    dsimp only at hr ⊢
    have nu1 : ∀ P, Prime P → nu P (val h.1) ≤ 1 := fun P hP => by
      by_contra hc
      have : P ^ 2 ∣ val h.1 := (pow_dvd_iff_nu hP hpc.1).2 (by omega)
      rw [pow_two] at this
      exact hP.not_isUnit (hsq P this)
    have pct := hpc.of_dvd hr.dvd
    obtain ⟨last, hlast⟩ : ∃ last : List BElem, last = if isNumber t = true then [] else [(t, [(i, h.2)])] := ⟨_, rfl⟩
    rw [← hlast]
    have hl1 : BOK vc V N last := by
      intro b hb
      rw [hlast] at hb
      split at hb
      · simp at hb
      · rw [List.mem_singleton] at hb; rw [hb]; exact ⟨hr.okt, pct⟩
    have hl2 : ∀ P, Prime P → totNu P last = nu P (val t) := by
      intro P hP
      rw [hlast]
      split
      · rename_i hn
        rw [nu_unit hP (pct.2 _ ((number_of_vars ho hr.okt.ok).1 hn) dvd_rfl)]; rfl
      · simp [totNu]
    have hl3 : ∃ u : MvPolynomial Var ℤ, IsUnit u ∧ basisProd i last * u = val t ^ h.2 := by
      rw [hlast]
      split
      · rename_i hn
        exact ⟨val t ^ h.2, (pct.2 _ ((number_of_vars ho hr.okt.ok).1 hn) dvd_rfl).pow _, by rw [basisProd_nil, one_mul]⟩
      · exact ⟨1, isUnit_one, by simp [basisProd, multOf]⟩
    have hl4 : ∀ k, k ≠ i → basisProd k last = 1 := by
      intro k hk
      rw [hlast]
      split
      · rfl
      · simp [basisProd, multOf, Ne.symm hk]
    have hl5 : Tags (i + 1) last := by
      intro b hb x hx
      rw [hlast] at hb
      split at hb
      · simp at hb
      · rw [List.mem_singleton] at hb
        rw [hb, List.mem_singleton] at hx
        rw [hx]; exact Nat.lt_succ_self i
    have t1 : Tags (i + 1) lst := fun b hb => h5 b (List.mem_append_left _ hb)
    have t2 : Tags (i + 1) lst' := fun b hb => h5 b (List.mem_append_right _ hb)
    have t3 := hr.tagl t1
    rw [List.pairwise_cons] at hpw
    refine (ih l (lst' ++ n ++ last) hr.okl ?_ (fun x hx => hh x (by simp [hx])) hpw.2 (fun P hP => ?_) (fun P hP hex => ?_) ?_).mono fun r hres => ?_
    · intro b hb
      rcases List.mem_append.1 hb with hb | hb
      · rcases List.mem_append.1 hb with hb | hb
        · exact h2 b hb
        · exact hr.okn b hb
      · exact hl1 b hb
    · rw [totNu_append, totNu_append, hl2 P hP]
      have a := hr.tot P hP
      have b := h3 P hP
      have c := nu1 P hP
      have d := hr.left P hP (by omega) c
      by_cases hd : P ∣ val h.1
      · have e := h4 P hP ⟨h, by simp, hd⟩
        omega
      · have := nu_zero_of_not_dvd hP hpc.1 hd
        omega
    · obtain ⟨h', hh', hd⟩ := hex
      have hnd : ¬ P ∣ val h.1 := fun hd' => hP.not_isUnit (hpw.1 h' hh' hd' hd)
      rw [totNu_append, totNu_append, h4 P hP ⟨h', by simp [hh'], hd⟩, hl2 P hP, nu_zero_of_not_dvd hP pct.1 (fun hd' => hnd (hd'.trans hr.dvd)),
        totNu_zero_of hP hr.okn fun b hb hd' => hnd (hd'.trans (hr.new b hb))]
    · intro b hb
      simp only [List.mem_append] at hb
      rcases hb with hb | (hb | hb) | hb
      · exact t3 b (List.mem_append_left _ hb)
      · exact t2 b hb
      · exact t3 b (List.mem_append_right _ hb)
      · exact hl5 b hb
    · obtain ⟨r1, r2, r3, r4, u, hu, r5⟩ := hres
      refine ⟨r1, r2, r3, fun k hk => ?_, ?_⟩
      · rw [r4 k hk, basisProd_append, basisProd_append, basisProd_append, basisProd_append, hl4 k hk, ← hr.other k hk]; ring
      · obtain ⟨w, hw, e⟩ := hl3
        refine ⟨u * w, hu.mul hw, ?_⟩
        have hself := hr.self
        have hcons : prodPow (h :: hs) = val h.1 ^ h.2 * prodPow hs := by simp [prodPow]
        rw [hcons, ← mul_assoc, r5, basisProd_append, basisProd_append, basisProd_append, basisProd_append]
        calc basisProd i l * (basisProd i lst' * basisProd i n * basisProd i last) * prodPow hs * w
            = basisProd i l * basisProd i n * (basisProd i last * w) * basisProd i lst' * prodPow hs := by ring
          _ = _ := by rw [e, hself]; ring

theorem basisLoop_spec (ho : VarOrd vc) (hS : Small V N) (hg : GSpec vc V N gcd) (dfuel : ℕ) : ∀ (Fs done : List (PV Mono ℤ)) (lst : List BElem),
    (∀ F ∈ Fs, In vc V N F) → BOK vc V N lst → (∀ P, Prime P → totNu P lst ≤ 1) → Tags done.length lst →
    (∀ (k : ℕ) (hk : k < done.length), done[k] ≠ [] → ∃ c : ℤ, val done[k] = C c * basisProd k lst) →
    Post (basisLoop vc gcd dfuel done.length Fs lst) fun B => BOK vc V N B ∧ (∀ P, Prime P → totNu P B ≤ 1) ∧ Tags (done ++ Fs).length B ∧
      ∀ (k : ℕ) (hk : k < (done ++ Fs).length), (done ++ Fs)[k] ≠ [] → ∃ c : ℤ, val (done ++ Fs)[k] = C c * basisProd k B := by
  have M := lex_ord ho
  intro Fs
  induction Fs with
  | nil =>
    intro done lst _ h1 h2 h3 h4
    refine Post.ret ⟨h1, h2, by simpa using h3, fun k hk => ?_⟩
    simp only [List.append_nil] at hk ⊢
    exact h4 k hk
  | cons F Fs ih =>
    intro done lst hF h1 h2 h3 h4
    have e : done ++ F :: Fs = (done ++ [F]) ++ Fs := by simp
    have el : (done ++ [F]).length = done.length + 1 := by simp
    unfold basisLoop
    refine (squarefreeFactorize_spec ho hS hg dfuel dfuel F (hF F (by simp))).bind fun l hl => ?_
    have getd : ∀ k (hk : k < (done ++ [F]).length), (∃ hk' : k < done.length, (done ++ [F])[k] = done[k]) ∨ (k = done.length ∧ (done ++ [F])[k] = F) := by
      intro k hk
      rw [el] at hk
      by_cases h : k < done.length
      · exact .inl ⟨h, by rw [List.getElem_append_left h]⟩
      · have hk' : k = done.length := by omega
        subst hk'
        exact .inr ⟨rfl, by simp⟩
    simp only [e]
    rw [← el]
    refine Post.ite (fun hnil => ?_) fun hne => ?_
    · rcases hl with ⟨hF0, _⟩ | ⟨_, c, t, hl, _⟩
      · refine ih (done ++ [F]) lst (fun G hG => hF G (by simp [hG])) h1 h2 (fun b hb x hx => ?_) fun k hk hne => ?_
        · have := h3 b hb x hx; rw [el]; omega
        · rcases getd k hk with ⟨hk', hg'⟩ | ⟨hk', hg'⟩
          · rw [hg'] at hne ⊢; exact h4 k hk' hne
          · rw [hg'] at hne; exact absurd hF0 hne
      · rw [hl] at hnil; simp at hnil
    · rcases hl with ⟨_, hl⟩ | ⟨F0, c, t, hl, ho'⟩
      · exact absurd hl hne
      have F0' : val F ≠ 0 := fun h => F0 (((hF F (by simp)).ok.val_eq_zero M).1 h)
      have hlt : l.tail = t := by rw [hl]; rfl
      rw [hlt]
      have tg : Tags (done.length + 1) (lst ++ []) := fun b hb x hx => by rw [List.append_nil] at hb; have := h3 b hb x hx; omega
      refine (splitParts_spec ho hS hg dfuel done.length t lst [] h1 (by simp [BOK]) (fun h hh => ?_) ho'.coprime (fun P hP => by have := h2 P hP; simpa [totNu] using this)
        (fun P _ _ => rfl) tg).bind fun r hr => ?_
      · obtain ⟨a, b, d, k⟩ := ho'.parts h hh
        have : val h.1 ∣ val F := by rw [ho'.prod]; exact (dvd_prodPow hh b).mul_left _
        exact ⟨a, ⟨fun e => F0' (by rw [e] at this; exact zero_dvd_iff.1 this), k⟩, d⟩
      obtain ⟨r1, r2, r3, r4, u, hu, r5⟩ := hr
      rw [List.append_nil] at r4 r5
      refine ih (done ++ [F]) (r.1 ++ r.2) (fun G hG => hF G (by simp [hG])) r1 r2 (by rw [el]; exact r3) fun k hk hne => ?_
      rcases getd k hk with ⟨hk', hg'⟩ | ⟨hk', hg'⟩
      · rw [hg'] at hne ⊢
        rw [r4 k (by omega)]
        exact h4 k hk' hne
      · rw [hg', hk']
        have hb1 : basisProd done.length lst = 1 := basisProd_tags h3
        rw [hb1, one_mul] at r5
        have hcu : (val c * u).vars = ∅ := by
          have := vars_mul (val c) u
          rw [ho'.const, unit_vars hu] at this
          exact Finset.subset_empty.1 this
        refine ⟨coeff 0 (val c * u), ?_⟩
        rw [← vars_eq_empty_iff_eq_C.1 hcu, ho'.prod, ← r5]; ring

theorem relPrime_of_totNu {B : List BElem} (hB : BOK vc V N B) (h : ∀ P, Prime P → totNu P B ≤ 1) : (∀ b ∈ B, Squarefree (val b.1)) ∧ B.Pairwise fun a b => IsRelPrime (val a.1) (val b.1) := by
  induction B with
  | nil => simp
  | cons b B ih =>
    obtain ⟨i1, i2⟩ := ih (fun x hx => hB x (by simp [hx])) fun P hP => by have := h P hP; rw [totNu_cons] at this; omega
    have b0 := (hB b (by simp)).2.1
    refine ⟨fun x hx => ?_, List.pairwise_cons.2 ⟨fun x hx => ?_, i2⟩⟩
    · rcases List.mem_cons.1 hx with rfl | hx
      · exact squarefree_of_nu b0 irreducible_prime fun P hP => by have := h P hP; rw [totNu_cons] at this; omega
      · exact i1 x hx
    · refine isRelPrime_of_prime b0 irreducible_prime fun P hP h1 h2 => ?_
      have a1 := (dvd_iff_nu hP b0).1 h1
      have a2 := (dvd_iff_nu hP (hB x (by simp [hx])).2.1).1 h2
      have a3 := h P hP
      rw [totNu_cons] at a3
      have a4 : nu P (val x.1) ≤ totNu P B := List.single_le_sum (by simp) _ (List.mem_map_of_mem (f := fun b : BElem => nu P (val b.1)) hx)
      omega

/-- `squarefreebasis` -/
theorem squarefreeBasis_spec (ho : VarOrd vc) (hS : Small V N) (hg : GSpec vc V N gcd) (dfuel : ℕ) {F : List (PV Mono ℤ)} (hF : ∀ f ∈ F, In vc V N f) :
    Post (squarefreeBasis vc gcd dfuel F) fun B => (∀ b ∈ B, In vc V N b.1 ∧ Squarefree (val b.1) ∧ ∀ x ∈ b.2, x.1 < F.length) ∧ (B.Pairwise fun a b => IsRelPrime (val a.1) (val b.1)) ∧
      ∀ (k : ℕ) (hk : k < F.length), F[k] ≠ [] → ∃ c : ℤ, val F[k] = C c * basisProd k B := by
  have := basisLoop_spec ho hS hg dfuel F [] [] hF (by simp [BOK]) (fun P _ => Nat.zero_le _) (by simp [Tags]) (by simp)
  refine this.mono fun B hB => ?_
  obtain ⟨b1, b2, b3, b4⟩ := hB
  obtain ⟨c1, c2⟩ := relPrime_of_totNu b1 b2
  exact ⟨fun b hb => ⟨(b1 b hb).1, c1 b hb, b3 b hb⟩, c2, b4⟩

end Mgcd
end CLPoly
