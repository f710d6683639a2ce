import Verif.Dense.Word
import Mathlib.Algebra.Polynomial.Coeff
import Mathlib.Algebra.Polynomial.Degree.Lemmas
import Mathlib.Tactic.LinearCombination
import Mathlib.Algebra.BigOperators.NatAntidiagonal

/-! Coefficient arrays of `dense_upoly_zp` as polynomials over `ZMod p`: addition, subtraction, schoolbook and Karatsuba products. -/

namespace CLPoly
namespace Dense
open Polynomial

/-- the polynomial with the given coefficients in ascending order -/
noncomputable def toP (p : Nat) : List Nat → (ZMod p)[X]
  | [] => 0
  | a :: l => C (a : ZMod p) + X * toP p l

/-- every coefficient is a residue -/
def Below (p : Nat) (l : List Nat) : Prop := ∀ a ∈ l, a < p
/-- no zero at the high end -/
def Trim (l : List Nat) : Prop := ∀ h : l ≠ [], l.getLast h ≠ 0

/-- canonical coefficient arrays: what the class invariant "无 leading zero" and the residue range say -/
structure Can (p : Nat) (l : List Nat) : Prop where
  below : Below p l
  trim : Trim l

instance (p l) : Decidable (Below p l) := inferInstanceAs (Decidable (∀ a ∈ l, a < p))
instance (l : List Nat) : Decidable (Trim l) := inferInstanceAs (Decidable (∀ h : l ≠ [], l.getLast h ≠ 0))
instance (p l) : Decidable (Can p l) := decidable_of_iff (Below p l ∧ Trim l) ⟨fun h => ⟨h.1, h.2⟩, fun h => ⟨h.1, h.2⟩⟩

variable {p : Nat}

@[simp] theorem toP_nil : toP p [] = 0 := rfl
@[simp] theorem toP_cons (a : Nat) (l : List Nat) : toP p (a :: l) = C (a : ZMod p) + X * toP p l := rfl

theorem Below.nil : Below p [] := by simp [Below]
theorem Below.cons {a l} : Below p (a :: l) ↔ a < p ∧ Below p l := by simp [Below]
theorem Below.append {l m} : Below p (l ++ m) ↔ Below p l ∧ Below p m := by
  simp only [Below, List.mem_append, or_imp, forall_and]
theorem Below.take {l} (h : Below p l) (n) : Below p (l.take n) := fun a ha => h a (List.mem_of_mem_take ha)
theorem Below.drop {l} (h : Below p l) (n) : Below p (l.drop n) := fun a ha => h a (List.mem_of_mem_drop ha)
theorem Below.getD {l} (h : Below p l) (h0 : 0 < p) (i) : l.getD i 0 < p := by
  by_cases hi : i < l.length
  · rw [List.getD_eq_getElem _ _ hi]; exact h _ (List.getElem_mem hi)
  · rw [List.getD_eq_default _ _ (by omega)]; exact h0
theorem Below.replicate (h0 : 0 < p) (n) : Below p (List.replicate n 0) := by
  intro a ha; rw [List.eq_of_mem_replicate ha]; exact h0
theorem Below.pad {l} (h : Below p l) (h0 : 0 < p) (n) : Below p (pad n l) := Below.append.2 ⟨h, Below.replicate h0 _⟩

theorem coeff_toP (l : List Nat) : ∀ i, (toP p l).coeff i = ((l.getD i 0 : Nat) : ZMod p) := by
  induction l with
  | nil => intro i; simp
  | cons a l ih =>
    intro i
    cases i with
    | zero => simp
    | succ i => simp [coeff_X_mul, ih, coeff_C]

theorem toP_append (l m : List Nat) : toP p (l ++ m) = toP p l + X ^ l.length * toP p m := by
  induction l with
  | nil => simp
  | cons a l ih => simp only [List.cons_append, toP_cons, ih, List.length_cons]; ring

theorem toP_replicate (n : Nat) : toP p (List.replicate n 0) = 0 := by
  induction n with
  | zero => rfl
  | succ n ih => simp [List.replicate_succ, ih]

theorem toP_pad (n : Nat) (l : List Nat) : toP p (pad n l) = toP p l := by
  unfold pad; rw [toP_append, toP_replicate]; simp

theorem pad_length {n : Nat} {l : List Nat} (h : l.length ≤ n) : (pad n l).length = n := by
  unfold pad; simp; omega

theorem toP_take_drop (n : Nat) (l : List Nat) (h : n ≤ l.length) : toP p l = toP p (l.take n) + X ^ n * toP p (l.drop n) := by
  conv_lhs => rw [← List.take_append_drop n l]
  rw [toP_append, List.length_take, Nat.min_eq_left h]

theorem toP_take_drop' (n : Nat) (l : List Nat) : toP p l = toP p (l.take n) + X ^ n * toP p (l.drop n) := by
  by_cases h : n ≤ l.length
  · exact toP_take_drop n l h
  · rw [List.take_of_length_le (by omega), List.drop_of_length_le (by omega)]; simp

/-! ### stripping -/

theorem toP_strip (l : List Nat) : toP p (strip l) = toP p l := by
  unfold strip
  induction l using List.reverseRecOn with
  | nil => rfl
  | append_singleton l a ih =>
    by_cases h : a = 0
    · subst h
      rw [List.rdropWhile_concat_pos _ _ _ (by simp), ih, toP_append]; simp
    · rw [List.rdropWhile_concat_neg _ _ _ (by simpa using h)]

theorem strip_trim (l : List Nat) : Trim (strip l) := by
  intro h
  have := List.rdropWhile_last_not (· == 0) l h
  simpa [strip] using this

theorem Below.strip {l} (h : Below p l) : Below p (strip l) :=
  fun a ha => h a ((List.rdropWhile_prefix (· == 0) (l := l)).sublist.subset ha)

theorem Can.strip {l} (h : Below p l) : Can p (strip l) := ⟨h.strip, strip_trim l⟩

theorem strip_length_le (l : List Nat) : (strip l).length ≤ l.length :=
  (List.rdropWhile_prefix (· == 0) (l := l)).length_le

theorem strip_of_trim {l : List Nat} (h : Trim l) : strip l = l := by
  unfold strip
  rw [List.rdropWhile_eq_self_iff]
  intro hl; simpa using h hl

/-! ### degrees -/

theorem cast_ne_zero {a : Nat} (h : a < p) (h0 : a ≠ 0) : (a : ZMod p) ≠ 0 := by
  intro e
  rw [ZMod.natCast_eq_zero_iff] at e
  have := Nat.le_of_dvd (by omega) e
  omega

theorem degree_toP_lt (l : List Nat) : (toP p l).degree < l.length := by
  rw [degree_lt_iff_coeff_zero]
  intro m hm
  rw [coeff_toP, List.getD_eq_default _ _ hm]; simp

/-- the length of a canonical array is determined by its polynomial -/
theorem Can.length_le_iff {l} (h : Can p l) (n : Nat) : l.length ≤ n ↔ (toP p l).degree < n := by
  constructor
  · intro hn
    exact lt_of_lt_of_le (degree_toP_lt l) (by exact_mod_cast hn)
  · intro hd
    by_contra hlt
    push Not at hlt
    have hne : l ≠ [] := by intro e; simp [e] at hlt
    have h1 := (degree_lt_iff_coeff_zero _ _).1 hd (l.length - 1) (by omega)
    rw [coeff_toP, List.getD_eq_getElem _ _ (by omega), ← List.getLast_eq_getElem hne] at h1
    exact cast_ne_zero (h.below _ (List.getLast_mem hne)) (h.trim hne) h1

theorem Can.nil : Can p [] := ⟨Below.nil, fun h => absurd rfl h⟩

theorem Can.eq_nil_iff {l} (h : Can p l) : l = [] ↔ toP p l = 0 := by
  constructor
  · rintro rfl; rfl
  · intro e
    have := (h.length_le_iff 0).2 (by rw [e, degree_zero]; exact WithBot.bot_lt_coe _)
    exact List.length_eq_zero_iff.1 (by omega)

/-- two canonical arrays with the same polynomial are equal -/
theorem Can.ext {l m} (hl : Can p l) (hm : Can p m) (e : toP p l = toP p m) : l = m := by
  have hlen : l.length = m.length := by
    apply le_antisymm
    · rw [hl.length_le_iff, e, ← hm.length_le_iff]
    · rw [hm.length_le_iff, ← e, ← hl.length_le_iff]
  apply List.ext_getElem hlen
  intro i h1 h2
  have h3 := congrArg (fun f => coeff f i) e
  simp only [coeff_toP, List.getD_eq_getElem _ _ h1, List.getD_eq_getElem _ _ h2] at h3
  rw [ZMod.natCast_eq_natCast_iff'] at h3
  rwa [Nat.mod_eq_of_lt (hl.below _ (List.getElem_mem h1)), Nat.mod_eq_of_lt (hm.below _ (List.getElem_mem h2))] at h3

/-! ### addition and subtraction -/

theorem addRaw_nil_right (c : Modulus) (A : List Nat) : addRaw c A [] = A := by cases A <;> rfl

theorem addRaw_spec (hW : p < W) : ∀ A B : List Nat, Below p A → Below p B →
    Below p (addRaw (precompute p) A B) ∧ toP p (addRaw (precompute p) A B) = toP p A + toP p B ∧
      (addRaw (precompute p) A B).length = max A.length B.length := by
  intro A
  induction A with
  | nil => intro B _ hB; exact ⟨hB, by simp [addRaw], by simp [addRaw]⟩
  | cons a A ih =>
    intro B hA hB
    cases B with
    | nil => exact ⟨hA, by simp [addRaw], by simp [addRaw]⟩
    | cons b B =>
      rw [Below.cons] at hA hB
      obtain ⟨h1, h2, h3⟩ := ih B hA.2 hB.2
      obtain ⟨s1, s2⟩ := nmodAdd_spec hW hA.1 hB.1
      refine ⟨Below.cons.2 ⟨s1, h1⟩, ?_, by simp only [addRaw, List.length_cons, h3]; omega⟩
      simp only [addRaw, toP_cons, s2, h2, C_add]; ring

theorem subRaw_nil_left (hW : p < W) : ∀ B : List Nat, Below p B →
    Below p (B.map fun b => if b = 0 then 0 else subW p b) ∧
      toP p (B.map fun b => if b = 0 then 0 else subW p b) = -toP p B := by
  intro B
  induction B with
  | nil => intro _; exact ⟨Below.nil, by simp⟩
  | cons b B ih =>
    intro hB
    rw [Below.cons] at hB
    obtain ⟨h1, h2⟩ := ih hB.2
    rw [List.map_cons]
    have key : (if b = 0 then 0 else subW p b) < p ∧ ((if b = 0 then 0 else subW p b : Nat) : ZMod p) = -b := by
      by_cases h : b = 0
      · rw [if_pos h, h]; exact ⟨by omega, by simp⟩
      · rw [if_neg h, subW_of_le hW hB.1.le]
        exact ⟨by omega, by rw [Nat.cast_sub hB.1.le]; simp⟩
    refine ⟨Below.cons.2 ⟨key.1, h1⟩, ?_⟩
    rw [toP_cons, toP_cons, h2, key.2, C_neg]; ring

theorem subRaw_spec (hW : p < W) : ∀ A B : List Nat, Below p A → Below p B →
    Below p (subRaw (precompute p) A B) ∧ toP p (subRaw (precompute p) A B) = toP p A - toP p B ∧
      (subRaw (precompute p) A B).length = max A.length B.length := by
  intro A
  induction A with
  | nil =>
    intro B _ hB
    obtain ⟨h1, h2⟩ := subRaw_nil_left hW B hB
    have e : subRaw (precompute p) [] B = B.map fun b => if b = 0 then 0 else subW p b := by cases B <;> rfl
    rw [e]
    exact ⟨h1, by rw [h2]; simp, by simp⟩
  | cons a A ih =>
    intro B hA hB
    cases B with
    | nil => exact ⟨hA, by simp [subRaw], by simp [subRaw]⟩
    | cons b B =>
      rw [Below.cons] at hA hB
      obtain ⟨h1, h2, h3⟩ := ih B hA.2 hB.2
      obtain ⟨s1, s2⟩ := nmodSub_spec hW hA.1 hB.1
      refine ⟨Below.cons.2 ⟨s1, h1⟩, ?_, by simp only [subRaw, List.length_cons, h3]; omega⟩
      simp only [subRaw, toP_cons, s2, h2, C_sub]; ring

theorem polyAdd_spec (hW : p < W) {A B : List Nat} (hA : Below p A) (hB : Below p B) :
    Can p (polyAdd (precompute p) A B) ∧ toP p (polyAdd (precompute p) A B) = toP p A + toP p B := by
  obtain ⟨h1, h2, _⟩ := addRaw_spec hW A B hA hB
  exact ⟨Can.strip h1, by unfold polyAdd; rw [toP_strip, h2]⟩

theorem polySub_spec (hW : p < W) {A B : List Nat} (hA : Below p A) (hB : Below p B) :
    Can p (polySub (precompute p) A B) ∧ toP p (polySub (precompute p) A B) = toP p A - toP p B := by
  obtain ⟨h1, h2, _⟩ := subRaw_spec hW A B hA hB
  exact ⟨Can.strip h1, by unfold polySub; rw [toP_strip, h2]⟩

/-! ### schoolbook product -/

theorem dotLoop_spec (h0 : 0 < p) (hW : p < W) {A B : List Nat} (hA : Below p A) (hB : Below p B) (k : Nat) :
    ∀ (n j t : Nat) (acc : Word3), acc.OK → acc.val ≤ t * (p * p) → t + n < W →
      (dotLoop A B k j n acc).OK ∧ (dotLoop A B k j n acc).val ≤ (t + n) * (p * p) ∧
      (dotLoop A B k j n acc).val = acc.val + ∑ i ∈ Finset.range n, A.getD (j + i) 0 * B.getD (k - (j + i)) 0 := by
  intro n
  induction n with
  | zero => intro j t acc h1 h2 _; exact ⟨h1, by simpa [dotLoop] using h2, by simp [dotLoop]⟩
  | succ n ih =>
    intro j t acc h1 h2 ht
    have ha := hA.getD h0 j
    have hb := hB.getD h0 (k - j)
    have hab : A.getD j 0 * B.getD (k - j) 0 ≤ p * p := Nat.mul_le_mul ha.le hb.le
    have hpp : p * p ≤ W * W := Nat.mul_le_mul hW.le hW.le
    have hv : acc.val + A.getD j 0 * B.getD (k - j) 0 ≤ (t + 1) * (p * p) := by rw [Nat.add_mul]; omega
    have hv2 : (t + 1) * (p * p) < W * (W * W) :=
      calc (t + 1) * (p * p) ≤ (t + 1) * (W * W) := Nat.mul_le_mul_left _ hpp
        _ < W * (W * W) := Nat.mul_lt_mul_of_pos_right (by omega) (by decide)
    obtain ⟨m1, m2⟩ := mac_spec h1 (lt_trans ha hW) (lt_trans hb hW) (lt_of_le_of_lt hv hv2)
    obtain ⟨r1, r2, r3⟩ := ih (j + 1) (t + 1) _ m1 (by rw [m2]; exact hv) (by omega)
    simp only [dotLoop]
    refine ⟨r1, by rw [show t + (n + 1) = t + 1 + n by omega]; exact r2, ?_⟩
    rw [r3, m2, Finset.sum_range_succ']
    have : ∀ i, j + 1 + i = j + (i + 1) := by intro i; omega
    simp only [this, Nat.add_zero]; ring

theorem classicalCoeff_spec (h0 : 0 < p) (hW : p < W) {A B : List Nat} (hA : Below p A) (hB : Below p B)
    (hA0 : A ≠ []) (hlen : A.length < W) (k : Nat) :
    classicalCoeff (precompute p) A B k < p ∧
      ((classicalCoeff (precompute p) A B k : Nat) : ZMod p) = (toP p A * toP p B).coeff k := by
  have hApos : 0 < A.length := List.length_pos_iff.2 hA0
  unfold classicalCoeff
  obtain ⟨jmin, hmin⟩ : ∃ j, j = if k ≥ B.length then k - B.length + 1 else 0 := ⟨_, rfl⟩
  obtain ⟨jmax, hmax⟩ : ∃ j, j = if k < A.length then k else A.length - 1 := ⟨_, rfl⟩
  have hmax' : jmax ≤ k ∧ jmax < A.length := by rw [hmax]; split <;> omega
  dsimp only
  rw [← hmin, ← hmax]
  obtain ⟨r1, r2, r3⟩ := dotLoop_spec h0 hW hA hB k (jmax + 1 - jmin) jmin 0 ⟨0, 0, 0⟩ Word3.ok_zero (by simp [Word3.val]) (by omega)
  have hb : (dotLoop A B k jmin (jmax + 1 - jmin) ⟨0, 0, 0⟩).val < p * (W * W) := by
    refine lt_of_le_of_lt r2 ?_
    rw [Nat.zero_add, ← mul_assoc, mul_comm _ p, ← mul_assoc]
    rw [mul_assoc]
    apply Nat.mul_lt_mul_of_pos_left _ h0
    calc (jmax + 1 - jmin) * p ≤ W * p := Nat.mul_le_mul_right _ (by omega)
      _ < W * W := Nat.mul_lt_mul_of_pos_left hW (by decide)
  obtain ⟨s1, s2⟩ := lllMod_spec' h0 hW r1 hb
  refine ⟨s1, ?_⟩
  rw [s2, r3, coeff_mul, Finset.Nat.sum_antidiagonal_eq_sum_range_succ (fun i j => (toP p A).coeff i * (toP p B).coeff j)]
  have e0 : (⟨0, 0, 0⟩ : Word3).val = 0 := by simp [Word3.val]
  rw [e0, Nat.zero_add]
  push_cast
  have e1 : ∑ x ∈ Finset.range (jmax + 1 - jmin), ((A.getD (jmin + x) 0 : Nat) : ZMod p) * ((B.getD (k - (jmin + x)) 0 : Nat) : ZMod p) =
      ∑ j ∈ Finset.Ico jmin (jmax + 1), ((A.getD j 0 : Nat) : ZMod p) * ((B.getD (k - j) 0 : Nat) : ZMod p) := by
    rw [Finset.sum_Ico_eq_sum_range]
  rw [e1]
  simp only [coeff_toP]
  apply Finset.sum_subset
  · intro j hj; rw [Finset.mem_Ico] at hj; rw [Finset.mem_range]; omega
  · intro j hj hn
    rw [Finset.mem_range] at hj
    rw [Finset.mem_Ico] at hn
    by_cases h1 : j < jmin
    · have : B.length ≤ k - j := by rw [hmin] at h1; split at h1 <;> omega
      rw [List.getD_eq_default (l := B) _ this]; simp
    · have : A.length ≤ j := by
        have : jmax + 1 ≤ j := by omega
        rw [hmax] at this; split at this <;> omega
      rw [List.getD_eq_default (l := A) _ this]; simp

theorem toP_range_map (n : Nat) (f : Nat → Nat) (F : (ZMod p)[X]) (h : ∀ i < n, (f i : ZMod p) = F.coeff i) (hd : F.degree < n) :
    toP p ((List.range n).map f) = F := by
  ext i
  rw [coeff_toP]
  by_cases hi : i < n
  · rw [List.getD_eq_getElem _ _ (by simpa using hi)]
    simp [h i hi]
  · rw [List.getD_eq_default _ _ (by simp; omega), (degree_lt_iff_coeff_zero _ _).1 hd i (by omega)]; simp

theorem classicalMul_spec (h0 : 0 < p) (hW : p < W) {A B : List Nat} (hA : Below p A) (hB : Below p B)
    (hA0 : A ≠ []) (hB0 : B ≠ []) (hlen : A.length < W) :
    Below p (classicalMul (precompute p) A B) ∧ toP p (classicalMul (precompute p) A B) = toP p A * toP p B ∧
      (classicalMul (precompute p) A B).length = A.length + B.length - 1 := by
  have key := classicalCoeff_spec h0 hW hA hB hA0 hlen
  unfold classicalMul
  refine ⟨?_, ?_, by simp⟩
  · intro a ha
    rw [List.mem_map] at ha
    obtain ⟨k, _, rfl⟩ := ha
    exact (key k).1
  · apply toP_range_map _ _ _ (fun i _ => (key i).2)
    have hApos : 0 < A.length := List.length_pos_iff.2 hA0
    have hBpos : 0 < B.length := List.length_pos_iff.2 hB0
    rw [degree_lt_iff_coeff_zero]
    intro m hm
    apply coeff_eq_zero_of_degree_lt
    by_cases hz : toP p A = 0 ∨ toP p B = 0
    · have : toP p A * toP p B = 0 := by rcases hz with h | h <;> simp [h]
      rw [this, degree_zero]; exact WithBot.bot_lt_coe _
    push Not at hz
    have hd1 := (natDegree_lt_iff_degree_lt hz.1).2 (degree_toP_lt A)
    have hd2 := (natDegree_lt_iff_degree_lt hz.2).2 (degree_toP_lt B)
    have := natDegree_mul_le (p := toP p A) (q := toP p B)
    exact lt_of_le_of_lt degree_le_natDegree (by exact_mod_cast (by omega : (toP p A * toP p B).natDegree < m))

/-! ### Karatsuba -/

theorem karMul_spec (h0 : 0 < p) (hW : p < W) (fuel : Nat) : ∀ (n : Nat) (A B : List Nat), n < fuel → 0 < n → n < W →
    A.length = n → B.length = n → Below p A → Below p B →
    Below p (karMul (precompute p) fuel n A B) ∧ toP p (karMul (precompute p) fuel n A B) = toP p A * toP p B ∧
      (karMul (precompute p) fuel n A B).length = 2 * n - 1 := by
  induction fuel with
  | zero => intro n A B h; omega
  | succ fuel ih =>
    intro n A B hf hn hnW hA hB bA bB
    simp only [karMul]
    by_cases h16 : n < 16
    · rw [if_pos h16]
      obtain ⟨r1, r2, r3⟩ := classicalMul_spec h0 hW bA bB (by intro e; simp [e] at hA; omega) (by intro e; simp [e] at hB; omega) (by omega)
      exact ⟨r1, r2, by omega⟩
    · rw [if_neg h16]
      obtain ⟨m, hm⟩ : ∃ m, m = n / 2 := ⟨_, rfl⟩
      rw [← hm]
      have hAt : (A.take m).length = m := by rw [List.length_take]; omega
      have hBt : (B.take m).length = m := by rw [List.length_take]; omega
      have hAd : (A.drop m).length = n - m := by rw [List.length_drop]; omega
      have hBd : (B.drop m).length = n - m := by rw [List.length_drop]; omega
      obtain ⟨a1, a2, a3⟩ := addRaw_spec hW _ _ (bA.take m) (bA.drop m)
      obtain ⟨b1, b2, b3⟩ := addRaw_spec hW _ _ (bB.take m) (bB.drop m)
      obtain ⟨p01, p02, p03⟩ := ih m _ _ (by omega) (by omega) (by omega) hAt hBt (bA.take m) (bB.take m)
      obtain ⟨p11, p12, p13⟩ := ih (n - m) _ _ (by omega) (by omega) (by omega) (by rw [a3]; omega) (by rw [b3]; omega) a1 b1
      obtain ⟨p21, p22, p23⟩ := ih (n - m) _ _ (by omega) (by omega) (by omega) hAd hBd (bA.drop m) (bB.drop m)
      generalize karMul (precompute p) fuel m (A.take m) (B.take m) = P0 at *
      generalize karMul (precompute p) fuel (n - m) (A.drop m) (B.drop m) = P2 at *
      generalize karMul (precompute p) fuel (n - m) (addRaw (precompute p) (A.take m) (A.drop m))
        (addRaw (precompute p) (B.take m) (B.drop m)) = P1 at *
      obtain ⟨s1, s2, s3⟩ := subRaw_spec hW _ _ p11 p01
      obtain ⟨s4, s5, s6⟩ := subRaw_spec hW _ _ s1 p21
      generalize subRaw (precompute p) (subRaw (precompute p) P1 P0) P2 = P1' at *
      have bC : Below p (P0 ++ 0 :: P2) := Below.append.2 ⟨p01, Below.cons.2 ⟨h0, p21⟩⟩
      have lC : (P0 ++ 0 :: P2).length = 2 * n - 1 := by simp [p03, p23]; omega
      have vC : toP p (P0 ++ 0 :: P2) = toP p P0 + X ^ (2 * m) * toP p P2 := by
        rw [toP_append, toP_cons, p03]
        have : (X : (ZMod p)[X]) ^ (2 * m) = X ^ (2 * m - 1) * X := by rw [← pow_succ]; congr 1; omega
        rw [this]; simp; ring
      generalize P0 ++ 0 :: P2 = Cc at *
      obtain ⟨u1, u2, u3⟩ := addRaw_spec hW _ _ (bC.drop m) s4
      have lt' : (Cc.take m).length = m := by rw [List.length_take]; omega
      refine ⟨Below.append.2 ⟨bC.take m, u1⟩, ?_, ?_⟩
      · rw [toP_append, lt', u2]
        have e1 := toP_take_drop (p := p) m Cc (by omega)
        have e2 := toP_take_drop (p := p) m A (by omega)
        have e3 := toP_take_drop (p := p) m B (by omega)
        have : toP p Cc + X ^ m * toP p P1' = toP p A * toP p B := by
          rw [vC, s5, s2, p02, p12, p22, a2, b2, e2, e3, pow_mul, sq]
          have : (X : (ZMod p)[X]) ^ (2 * m) = X ^ m * X ^ m := by rw [← pow_add]; congr 1; omega
          ring
        rw [← this, e1]; ring
      · rw [List.length_append, lt', u3, List.length_drop, lC]
        rw [s6, s3]; omega

end Dense
end CLPoly
