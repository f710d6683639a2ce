import Verif.Poly.PackedDefs
import Verif.Mono.Ops
import Verif.Num.ZpLemmas

/-! # Correctness of packing and unpacking -/

namespace CLPoly
open Mono

/-! ## positional numbers -/

/-- the number with base-`B` digits `ds`, most significant first, after the prefix `acc` -/
def num (B : Nat) (ds : List Nat) (acc : Nat) : Nat := ds.foldl (fun a d => a * B + d) acc

theorem num_nil (B acc : Nat) : num B [] acc = acc := rfl
theorem num_cons (B d : Nat) (ds : List Nat) (acc : Nat) : num B (d :: ds) acc = num B ds (acc * B + d) := rfl

theorem num_acc (B : Nat) (ds : List Nat) (acc : Nat) : num B ds acc = acc * B ^ ds.length + num B ds 0 := by
  induction ds generalizing acc with
  | nil => simp [num_nil]
  | cons d ds ih =>
    rw [num_cons, num_cons, ih, ih (0 * B + d), List.length_cons, pow_succ]; ring

theorem num_lt (B : Nat) (ds : List Nat) (h : ∀ d ∈ ds, d < B) : num B ds 0 < B ^ ds.length := by
  induction ds with
  | nil => simp [num_nil]
  | cons d ds ih =>
    rw [num_cons, num_acc, List.length_cons, pow_succ]
    have h1 := ih fun x hx => h x (List.mem_cons_of_mem _ hx)
    have h2 : d + 1 ≤ B := h d (by simp)
    have h3 : (d + 1) * B ^ ds.length ≤ B * B ^ ds.length := Nat.mul_le_mul_right _ h2
    rw [zero_mul, zero_add, mul_comm (B ^ ds.length) B]
    rw [add_mul] at h3
    omega

theorem num_append (B : Nat) (xs ys : List Nat) (acc : Nat) : num B (xs ++ ys) acc = num B ys (num B xs acc) := by
  simp [num, List.foldl_append]

theorem num_digit (B : Nat) (pre suf : List Nat) (d acc : Nat) (hd : d < B) (hs : ∀ x ∈ suf, x < B) :
    num B (pre ++ d :: suf) acc / B ^ suf.length % B = d := by
  rw [num_append, num_cons, num_acc]
  have h1 := num_lt B suf hs
  have hB : 0 < B ^ suf.length := by omega
  rw [mul_comm, Nat.mul_add_div hB, Nat.div_eq_of_lt h1, add_zero, mul_comm, Nat.mul_add_mod, Nat.mod_eq_of_lt hd]

theorem num_top (B : Nat) (ds : List Nat) (acc : Nat) (hs : ∀ x ∈ ds, x < B) :
    num B ds acc / B ^ ds.length = acc := by
  rw [num_acc]
  have h1 := num_lt B ds hs
  have hB : 0 < B ^ ds.length := by omega
  rw [mul_comm, Nat.mul_add_div hB, Nat.div_eq_of_lt h1, add_zero]

theorem num_lex (B : Nat) (pre s1 s2 : List Nat) (x y acc : Nat) (hxy : x < y) (h1 : ∀ d ∈ s1, d < B)
    (hl : s1.length = s2.length) : num B (pre ++ x :: s1) acc < num B (pre ++ y :: s2) acc := by
  rw [num_append, num_append, num_cons, num_cons, num_acc B s1, num_acc B s2, hl]
  have := num_lt B s1 h1
  rw [hl] at this
  set a := num B pre acc
  have h3 : (a * B + x + 1) * B ^ s2.length ≤ (a * B + y) * B ^ s2.length := Nat.mul_le_mul_right _ (by omega)
  rw [add_mul] at h3
  omega

theorem num_acc_lt (B : Nat) (s1 s2 : List Nat) (a b : Nat) (hab : a < b) (h1 : ∀ d ∈ s1, d < B)
    (hl : s1.length = s2.length) : num B s1 a < num B s2 b := by
  rw [num_acc B s1, num_acc B s2, hl]
  have := num_lt B s1 h1
  rw [hl] at this
  have h3 : (a + 1) * B ^ s2.length ≤ b * B ^ s2.length := Nat.mul_le_mul_right _ (by omega)
  rw [add_mul] at h3
  omega

theorem num_add {α : Type*} (B : Nat) (vs : List α) (f g : α → Nat) (a b : Nat) :
    num B (vs.map f) a + num B (vs.map g) b = num B (vs.map fun v => f v + g v) (a + b) := by
  induction vs generalizing a b with
  | nil => rfl
  | cons v vs ih =>
    rw [List.map_cons, List.map_cons, List.map_cons, num_cons, num_cons, num_cons, ih]
    congr 1; ring

/-! ## machine words -/

theorem W_eq : W = 2 ^ 64 := by rfl

theorem shl64_eq {x l : Nat} (hl : l < 64) (h : x * 2 ^ l < W) : shl64 x l = x * 2 ^ l := by
  unfold shl64 shlW
  rw [Nat.mod_eq_of_lt hl, Nat.mod_eq_of_lt h]

theorem toU64_eq {e : Int} (h0 : 0 ≤ e) (h : e < (W : Int)) : toU64 e = e.toNat := by
  unfold toU64; rw [Int.emod_eq_of_lt h0 h]

theorem toI64_eq {x : Nat} (h : x < 2 ^ 63) : toI64 x = x := by unfold toI64; rw [if_pos h]

/-! ## the packing loop -/

variable {vc : Var → Var → Bool}

/-- the digits of a monomial over `vars` -/
def digs (vars : List Var) (d : List (Var × Int)) : List Nat := vars.map fun v => (E d v).toNat

theorem packLoop_eq (ho : VarOrd vc) (l : Nat) (hl : l < 64) (vars : List Var) (d : List (Var × Int)) (acc k : Nat)
    (hv : vars.Pairwise fun a b => vc a b = true) (hd : SortedV vc d) (hsub : ∀ x ∈ d, x.1 ∈ vars)
    (hb : ∀ x ∈ d, 0 < x.2 ∧ x.2 < (2 ^ l : Nat)) (hacc : acc < 2 ^ (l * k)) (hk : l * (k + vars.length) ≤ 64) :
    packLoop l vars d acc = num (2 ^ l) (digs vars d) acc := by
  induction vars generalizing d acc k with
  | nil => cases d with
    | nil => rfl
    | cons x d => exact absurd (hsub x (by simp)) (by simp)
  | cons i vs ih =>
    rw [List.pairwise_cons] at hv
    have hpow : acc * 2 ^ l < 2 ^ (l * (k + 1)) := by
      rw [mul_add, mul_one, pow_add]; exact Nat.mul_lt_mul_of_pos_right hacc (by positivity)
    have hle : l * (k + 1) ≤ 64 := le_trans (Nat.mul_le_mul_left _ (by simp)) hk
    have hW : 2 ^ (l * (k + 1)) ≤ W := by rw [W_eq]; exact Nat.pow_le_pow_right (by norm_num) hle
    have hs : shl64 acc l = acc * 2 ^ l := shl64_eq hl (lt_of_lt_of_le hpow hW)
    have hk' : l * (k + 1 + vs.length) ≤ 64 := by
      rw [List.length_cons] at hk; rwa [add_assoc, add_comm 1]
    cases d with
    | nil =>
      rw [packLoop, hs, ih [] _ (k + 1) hv.2 List.Pairwise.nil (by simp) (by simp) hpow hk']
      simp [digs, num_cons, E_nil]
    | cons x d =>
      rw [packLoop]
      split
      · rename_i he
        obtain ⟨hx0, hx1⟩ := hb x (by simp)
        have hxW : x.2 < (W : Int) := by
          have : 2 ^ l ≤ W := by rw [W_eq]; exact Nat.pow_le_pow_right (by norm_num) hl.le
          omega
        have hxl : x.2.toNat < 2 ^ l := by omega
        have hsum : acc * 2 ^ l + x.2.toNat < 2 ^ (l * (k + 1)) := by
          rw [mul_add, mul_one, pow_add]
          have : (acc + 1) * 2 ^ l ≤ 2 ^ (l * k) * 2 ^ l := Nat.mul_le_mul_right _ hacc
          rw [add_mul] at this
          omega
        rw [toU64_eq hx0.le hxW, hs, addW_of_lt (lt_of_lt_of_le hsum hW)]
        have hnot : ∀ y ∈ d, y.1 ≠ i := fun y hy e => by
          have := (List.pairwise_cons.1 hd).1 y hy
          rw [e, he, ho.irrefl _ trivial] at this
          exact absurd this (by simp)
        rw [ih d _ (k + 1) hv.2 hd.tail (fun y hy => by
            have := hsub y (List.mem_cons_of_mem _ hy)
            rcases List.mem_cons.1 this with h | h
            · exact absurd h (hnot y hy)
            · exact h) (fun y hy => hb y (List.mem_cons_of_mem _ hy)) hsum hk']
        have e1 : E (x :: d) i = x.2 := by rw [he]; exact E_mem ho hd (by simp)
        have e2 : digs vs (x :: d) = digs vs d := by
          unfold digs
          apply List.map_congr_left
          intro v hvv
          rw [E_cons, if_neg, zero_add]
          intro e
          have := hv.1 v hvv
          rw [he, e, ho.irrefl _ trivial] at this
          exact absurd this (by simp)
        have e3 : digs (i :: vs) (x :: d) = x.2.toNat :: digs vs d := by
          rw [← e2]; simp [digs, e1]
        rw [e3, num_cons]
      · rename_i he
        have hxv : x.1 ∈ vs := (List.mem_cons.1 (hsub x (by simp))).resolve_left fun e => he e.symm
        have hix := hv.1 x.1 hxv
        have hnot : ∀ y ∈ x :: d, y.1 ≠ i := fun y hy e => by
          rcases List.mem_cons.1 hy with rfl | hy
          · exact he e.symm
          · have := (List.pairwise_cons.1 hd).1 y hy
            rw [e] at this
            have := ho.trans _ _ _ trivial trivial trivial this hix
            rw [ho.irrefl _ trivial] at this
            exact absurd this (by simp)
        rw [hs, ih (x :: d) _ (k + 1) hv.2 hd (fun y hy =>
          (List.mem_cons.1 (hsub y hy)).resolve_left (hnot y hy)) hb hpow hk']
        have e1 : E (x :: d) i = 0 := E_not_mem hnot
        simp [digs, num_cons, e1]

/-! ## the unpacking loops -/

/-- every decompression mask used selects the `l` bits above `ll` -/
theorem fieldAt_eq (l ll mc : Nat) (hl : 0 < l) (h : l + ll ≤ 64) (hll : 0 < ll) (hmc : mc < W) :
    fieldAt (subW (shl64 1 (l + ll)) (shl64 1 ll)) ll mc = mc / 2 ^ ll % 2 ^ l := by
  have hW : (2:Nat) ^ (l + ll) ≤ 2 ^ 64 := Nat.pow_le_pow_right (by norm_num) h
  have hll2 : (2:Nat) ^ ll < 2 ^ (l + ll) := Nat.pow_lt_pow_right (by norm_num) (by omega)
  have hsplit : (2:Nat) ^ (l + ll) = 2 ^ ll * (2 ^ l - 1) + 2 ^ ll := by
    rw [Nat.mul_sub, mul_one, ← pow_add, add_comm ll l]; omega
  have h1 : shl64 1 ll = 2 ^ ll := by
    rw [shl64_eq (by omega) (by rw [W_eq, one_mul]; omega), one_mul]
  rw [h1]
  have hmask : ∃ r, r < 2 ^ ll ∧ subW (shl64 1 (l + ll)) (2 ^ ll) = 2 ^ ll * (2 ^ l - 1) + r := by
    by_cases h64 : l + ll = 64
    · refine ⟨1, Nat.one_lt_two_pow (by omega), ?_⟩
      rw [h64] at hsplit ⊢
      rw [h64] at hll2
      have : shl64 1 64 = 1 := by decide
      rw [this]
      unfold subW
      rw [Nat.mod_eq_of_lt (a := 2 ^ ll) (by rw [W_eq]; exact hll2), W_eq]
      have h2 : 1 < 2 ^ ll := Nat.one_lt_two_pow (by omega)
      rw [Nat.mod_eq_of_lt (by omega)]
      omega
    · refine ⟨0, by positivity, ?_⟩
      have hW' : (2:Nat) ^ (l + ll) < 2 ^ 64 := Nat.pow_lt_pow_right (by norm_num) (by omega)
      rw [shl64_eq (by omega) (by rw [W_eq, one_mul]; exact hW'), one_mul]
      unfold subW
      rw [Nat.mod_eq_of_lt (a := 2 ^ ll) (by rw [W_eq]; omega), W_eq]
      have : (2 ^ (l + ll) + (2 ^ 64 - 2 ^ ll)) = (2 ^ (l + ll) - 2 ^ ll) + 2 ^ 64 := by omega
      rw [this, Nat.add_mod_right, Nat.mod_eq_of_lt (by omega)]
      omega
  obtain ⟨r, hr, hm⟩ := hmask
  unfold fieldAt
  rw [hm]
  apply Nat.eq_of_testBit_eq
  intro i
  rw [Nat.testBit_shiftRight, Nat.testBit_and, Nat.testBit_two_pow_mul_add _ hr, if_neg (by omega),
    Nat.testBit_two_pow_sub_one, Nat.testBit_mod_two_pow, Nat.testBit_div_two_pow, Bool.and_comm]
  have : ll + i - ll = i := by omega
  rw [this]
  congr 2
  omega

theorem field_shift (l N j x : Nat) (hN : l * N ≤ 64) (hj : j < N) :
    (x * 2 ^ (l * j)) % W / 2 ^ (l * (N - 1)) % 2 ^ l = x / 2 ^ (l * (N - 1 - j)) % 2 ^ l := by
  have e0 : l * N = l * (N - 1) + l := by
    obtain ⟨M, rfl⟩ : ∃ M, N = M + 1 := ⟨N - 1, by omega⟩
    rw [Nat.add_sub_cancel, mul_add, mul_one]
  have e1 : l * (N - 1) = l * j + l * (N - 1 - j) := by rw [← mul_add]; congr 1; omega
  apply Nat.eq_of_testBit_eq
  intro i
  rw [Nat.testBit_mod_two_pow, Nat.testBit_div_two_pow, W_eq, Nat.testBit_mod_two_pow, mul_comm x, Nat.testBit_two_pow_mul,
    Nat.testBit_mod_two_pow, Nat.testBit_div_two_pow]
  by_cases hi : i < l
  · have h1 : i + l * (N - 1) < 64 := by omega
    have h2 : i + l * (N - 1) ≥ l * j := by omega
    have h3 : i + l * (N - 1) - l * j = i + l * (N - 1 - j) := by omega
    simp [hi, h1, h2, h3]
  · simp [hi]

theorem shl64_shift (l j x : Nat) (hl : l < 64) : shl64 ((x * 2 ^ (l * j)) % W) l = (x * 2 ^ (l * (j + 1))) % W := by
  unfold shl64 shlW
  rw [Nat.mod_eq_of_lt hl, Nat.mod_mul_mod, mul_add, mul_one, pow_add, mul_assoc]

/-- the data rebuilt from the digits -/
def rebuild : List Var → List Nat → List (Var × Int)
  | v :: vs, d :: ds => if d ≠ 0 then (v, (d : Int)) :: rebuild vs ds else rebuild vs ds
  | _, _ => []

theorem unpackLoopLex_eq (l N : Nat) (hl : 0 < l) (hl2 : l < 64) (hN : l * N ≤ 64) (hN2 : 2 ≤ N)
    (vars : List Var) (pre ds : List Nat) (acc : Nat) (hlen : vars.length = ds.length)
    (hpre : pre.length + ds.length = N) (hds : ∀ d ∈ ds, d < 2 ^ l) (hl63 : l ≤ 63) :
    unpackLoopLex l (l * (N - 1)) (subW (shl64 1 (l * N)) (shl64 1 (l * (N - 1)))) vars
      ((num (2 ^ l) (pre ++ ds) acc * 2 ^ (l * pre.length)) % W) = rebuild vars ds := by
  induction ds generalizing vars pre with
  | nil =>
    cases vars with
    | nil => rfl
    | cons => simp at hlen
  | cons d ds ih =>
    cases vars with
    | nil => simp at hlen
    | cons v vs =>
      have e0 : l * N = l + l * (N - 1) := by
        obtain ⟨M, rfl⟩ : ∃ M, N = M + 1 := ⟨N - 1, by omega⟩
        rw [Nat.add_sub_cancel, mul_add, mul_one, add_comm]
      rw [List.length_cons] at hpre
      have hpart : fieldAt (subW (shl64 1 (l * N)) (shl64 1 (l * (N - 1)))) (l * (N - 1))
          ((num (2 ^ l) (pre ++ d :: ds) acc * 2 ^ (l * pre.length)) % W) = d := by
        rw [e0, fieldAt_eq l (l * (N - 1)) _ hl (by rw [← e0]; exact hN) (Nat.mul_pos hl (by omega))
          (Nat.mod_lt _ (by decide)), field_shift l N _ _ hN (by omega)]
        have : N - 1 - pre.length = ds.length := by omega
        rw [this, pow_mul]
        exact num_digit _ _ _ _ _ (hds d (by simp)) fun x hx => hds x (List.mem_cons_of_mem _ hx)
      have hrec := ih vs (pre ++ [d]) (by simpa using hlen) (by simp; omega)
        (fun x hx => hds x (List.mem_cons_of_mem _ hx))
      rw [List.append_assoc, List.singleton_append, List.length_append, List.length_singleton] at hrec
      rw [unpackLoopLex]
      rw [hpart, shl64_shift _ _ _ hl2, hrec, rebuild]
      have : toI64 d = d := toI64_eq (lt_of_lt_of_le (hds d (by simp)) (Nat.pow_le_pow_right (by norm_num) hl63))
      rw [this]

theorem unpackLoopGr_eq (l N : Nat) (hl : 0 < l) (hl2 : l < 64) (hN : l * N ≤ 64) (hN2 : 2 ≤ N)
    (vars : List Var) (pre ds : List Nat) (acc c : Nat) (hlen : vars.length = ds.length)
    (hpre : (pre ++ [c]).length + ds.length = N) (hds : ∀ d ∈ ds, d < 2 ^ l) :
    unpackLoopGr l (l * (N - 1)) (subW (shl64 1 (l * N)) (shl64 1 (l * (N - 1)))) vars
      ((num (2 ^ l) (pre ++ c :: ds) acc * 2 ^ (l * pre.length)) % W) = rebuild vars ds := by
  induction ds generalizing vars pre c with
  | nil =>
    cases vars with
    | nil => rfl
    | cons => simp at hlen
  | cons d ds ih =>
    cases vars with
    | nil => simp at hlen
    | cons v vs =>
      have e0 : l * N = l + l * (N - 1) := by
        obtain ⟨M, rfl⟩ : ∃ M, N = M + 1 := ⟨N - 1, by omega⟩
        rw [Nat.add_sub_cancel, mul_add, mul_one, add_comm]
      rw [List.length_append, List.length_singleton, List.length_cons] at hpre
      have hassoc : pre ++ c :: d :: ds = (pre ++ [c]) ++ d :: ds := by simp
      have hlen2 : (pre ++ [c]).length = pre.length + 1 := by simp
      have hpart : fieldAt (subW (shl64 1 (l * N)) (shl64 1 (l * (N - 1)))) (l * (N - 1))
          ((num (2 ^ l) (pre ++ c :: d :: ds) acc * 2 ^ (l * (pre.length + 1))) % W) = d := by
        rw [e0, fieldAt_eq l (l * (N - 1)) _ hl (by rw [← e0]; exact hN) (Nat.mul_pos hl (by omega))
          (Nat.mod_lt _ (by decide)), field_shift l N _ _ hN (by omega)]
        have : N - 1 - (pre.length + 1) = ds.length := by omega
        rw [this, pow_mul, hassoc]
        exact num_digit _ _ _ _ _ (hds d (by simp)) fun x hx => hds x (List.mem_cons_of_mem _ hx)
      have hrec := ih vs (pre ++ [c]) d (by simpa using hlen) (by simp; omega)
        (fun x hx => hds x (List.mem_cons_of_mem _ hx))
      rw [← hassoc, hlen2] at hrec
      rw [unpackLoopGr]
      rw [shl64_shift _ _ _ hl2, hpart, hrec, rebuild]
      have : toI64 d = d := toI64_eq (lt_of_lt_of_le (hds d (by simp)) (Nat.pow_le_pow_right (by norm_num) (by omega)))
      rw [this]

theorem rebuild_eq (vars : List Var) (f : Var → Nat) :
    rebuild vars (vars.map f) = (vars.filter fun v => f v ≠ 0).map fun v => (v, (f v : Int)) := by
  induction vars with
  | nil => rfl
  | cons v vs ih =>
    rw [List.map_cons, rebuild, ih]
    by_cases h : f v = 0
    · simp [h]
    · simp [h]

theorem rebuild_digs (ho : VarOrd vc) {vars : List Var} {d : List (Var × Int)} (hv : vars.Pairwise fun a b => vc a b = true)
    (hd : SortedV vc d) (hp : ∀ x ∈ d, 0 < x.2) (hsub : ∀ x ∈ d, x.1 ∈ vars) : rebuild vars (digs vars d) = d := by
  unfold digs
  rw [rebuild_eq]
  have hE := E_nonneg hp
  have hs : SortedV vc ((vars.filter fun v => (E d v).toNat ≠ 0).map fun v => (v, ((E d v).toNat : Int))) :=
    List.pairwise_map.2 (hv.sublist List.filter_sublist)
  refine E_inj ho ⟨hs, ?_⟩ ⟨hd, fun x hx => (hp x hx).ne'⟩ ?_
  · intro x hx
    obtain ⟨y, hy, rfl⟩ := List.mem_map.1 hx
    have := (List.mem_filter.1 hy).2
    simp only [ne_eq, decide_eq_true_eq] at this
    show ((E d y).toNat : Int) ≠ 0
    omega
  · intro v
    by_cases h : E d v = 0
    · rw [h]
      apply E_not_mem
      intro x hx e
      obtain ⟨y, hy, rfl⟩ := List.mem_map.1 hx
      have := (List.mem_filter.1 hy).2
      simp only at e
      subst e
      simp [h] at this
    · obtain ⟨x, hx, e⟩ := exists_of_E h
      have hm : (v, ((E d v).toNat : Int)) ∈ (vars.filter fun v => (E d v).toNat ≠ 0).map fun v => (v, ((E d v).toNat : Int)) := by
        apply List.mem_map.2
        refine ⟨v, List.mem_filter.2 ⟨e ▸ hsub x hx, ?_⟩, rfl⟩
        have := hE v
        simp only [ne_eq, decide_eq_true_eq]
        omega
      have := E_mem ho hs hm
      rw [this]
      have := hE v
      show ((E d v).toNat : Int) = _
      omega

end CLPoly
