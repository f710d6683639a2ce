import Verif.Upoly.FactorZDefs
import Mathlib.Tactic.Linarith
import Mathlib.Data.List.GetD
import Mathlib.Data.List.Basic

/-! # Enumeration of combinations by `next_combination`

Combinations are kept in reverse order (largest index first). -/

namespace CLPoly
namespace Upoly

/-- strictly decreasing, below `n` -/
def Valid : Nat → List Nat → Prop
  | _, [] => True
  | n, i :: l => i < n ∧ Valid i l

theorem Valid.mono : ∀ {l : List Nat} {n k : Nat}, Valid n l → n ≤ k → Valid k l
  | [], _, _, _, _ => trivial
  | _ :: _, _, _, h, hk => ⟨lt_of_lt_of_le h.1 hk, h.2⟩

/-- the order of the enumeration: the smallest index (last) is the most significant -/
def LexLt : List Nat → List Nat → Prop
  | i :: l, k :: y => LexLt l y ∨ (l = y ∧ i < k)
  | _, _ => False

theorem LexLt.irrefl : ∀ l : List Nat, ¬ LexLt l l
  | [] => fun h => h
  | _ :: l => by
    rintro (h | ⟨_, h⟩)
    · exact irrefl l h
    · exact lt_irrefl _ h

theorem LexLt.trans : ∀ {a b c : List Nat}, LexLt a b → LexLt b c → LexLt a c
  | _ :: _, _ :: _, _ :: _, h1, h2 => by
    rcases h1 with h1 | ⟨rfl, h1⟩
    · rcases h2 with h2 | ⟨rfl, h2⟩
      · exact .inl (trans h1 h2)
      · exact .inl h1
    · rcases h2 with h2 | ⟨rfl, h2⟩
      · exact .inl h2
      · exact .inr ⟨rfl, h1.trans h2⟩
  | [], _, _, h1, _ => by simp [LexLt] at h1
  | _ :: _, [], _, h1, _ => by simp [LexLt] at h1
  | _ :: _, _ :: _, [], _, h2 => by simp [LexLt] at h2

theorem lex_total : ∀ {a b : List Nat}, a.length = b.length → LexLt a b ∨ a = b ∨ LexLt b a
  | [], [], _ => .inr (.inl rfl)
  | i :: l, k :: y, h => by
    rcases lex_total (a := l) (b := y) (by simpa using h) with h | rfl | h
    · exact .inl (.inl h)
    · rcases lt_trichotomy i k with h | rfl | h
      · exact .inl (.inr ⟨rfl, h⟩)
      · exact .inr (.inl rfl)
      · exact .inr (.inr (.inr ⟨rfl, h⟩))
    · exact .inr (.inr (.inl h))
  | [], _ :: _, h => by simp at h
  | _ :: _, [], h => by simp at h

/-- a number that decreases along the enumeration -/
def combMeas : Nat → List Nat → Nat
  | _, [] => 0
  | n, i :: l => 2 ^ (n - 1 - i) + 2 * combMeas (n - 1) l

theorem nextComb_some : ∀ {l : List Nat} {n : Nat} {l' : List Nat}, nextComb n l = some l' → Valid n l →
    Valid n l' ∧ l'.length = l.length ∧ LexLt l l' ∧ (∀ x, Valid n x → x.length = l.length → LexLt l x → LexLt x l' → False) ∧ combMeas n l' + 2 ^ (n - 1 - l'.headD 0) ≤ combMeas n l ∧ l' ≠ []
  | [], n, l', h, _ => by simp [nextComb] at h
  | i :: l, n, l', h, hv => by
    obtain ⟨v1, v2⟩ := hv
    have e : nextComb n (i :: l) = if i + 1 < n then some ((i + 1) :: l) else (nextComb (n - 1) l).map fun l' => (l'.headD 0 + 1) :: l' := rfl
    rw [e] at h
    split at h
    · next hi =>
      simp only [Option.some.injEq] at h
      subst h
      refine ⟨⟨hi, v2.mono (by omega)⟩, rfl, .inr ⟨rfl, by omega⟩, ?_, ?_, by simp⟩
      · rintro (_ | ⟨k, y⟩) hx hl h1 h2
        · simp [LexLt] at h2
        · rcases h1 with h1 | ⟨rfl, h1⟩
          · rcases h2 with h2 | ⟨rfl, _⟩
            · exact LexLt.irrefl _ (h1.trans h2)
            · exact LexLt.irrefl _ h1
          · rcases h2 with h2 | ⟨_, h2⟩
            · exact LexLt.irrefl _ h2
            · omega
      · show 2 ^ (n - 1 - (i + 1)) + 2 * combMeas (n - 1) l + 2 ^ (n - 1 - (i + 1)) ≤ 2 ^ (n - 1 - i) + 2 * combMeas (n - 1) l
        have : n - 1 - i = (n - 1 - (i + 1)) + 1 := by omega
        rw [this, pow_succ]
        omega
    · next hi =>
      have hin : i = n - 1 := by omega
      rw [Option.map_eq_some_iff] at h
      obtain ⟨w, hw, rfl⟩ := h
      obtain ⟨a1, a2, a3, a4, a5, a6⟩ := nextComb_some hw (v2.mono (by omega))
      obtain ⟨h, w, rfl⟩ := List.exists_cons_of_ne_nil a6
      have hh : h < n - 1 := a1.1
      refine ⟨⟨show h + 1 < n by omega, ⟨show h < h + 1 by omega, a1.2⟩⟩, by simpa using a2, .inl a3, ?_, ?_, by simp⟩
      · rintro (_ | ⟨k, y⟩) hx hl h1 h2
        · simp [LexLt] at h2
        · obtain ⟨x1, x2⟩ := hx
          rcases h1 with h1 | ⟨rfl, h1⟩
          · rcases h2 with h2 | ⟨rfl, h2⟩
            · exact a4 y (x2.mono (by omega)) (by simpa using hl) h1 h2
            · have := x2.1
              simp only [List.headD_cons] at h2
              omega
          · omega
      · show 2 ^ (n - 1 - (h + 1)) + 2 * combMeas (n - 1) (h :: w) + 2 ^ (n - 1 - (h + 1)) ≤ 2 ^ (n - 1 - i) + 2 * combMeas (n - 1) l
        simp only [List.headD_cons] at a5
        have e1 : n - 1 - 1 - h = n - 1 - (h + 1) := by omega
        have e2 : n - 1 - i = 0 := by omega
        rw [e1] at a5
        rw [e2, pow_zero]
        omega

theorem nextComb_none : ∀ {l : List Nat} {n : Nat}, nextComb n l = none → Valid n l → ∀ x, Valid n x → x.length = l.length → ¬ LexLt l x
  | [], n, _, _, x, _, _ => by
    cases x <;> simp [LexLt]
  | i :: l, n, h, hv, x, hx, hl => by
    obtain ⟨v1, v2⟩ := hv
    have e : nextComb n (i :: l) = if i + 1 < n then some ((i + 1) :: l) else (nextComb (n - 1) l).map fun l' => (l'.headD 0 + 1) :: l' := rfl
    rw [e] at h
    split at h
    · simp at h
    · next hi =>
      rw [Option.map_eq_none_iff] at h
      cases x with
      | nil => simp at hl
      | cons k y =>
        obtain ⟨x1, x2⟩ := hx
        rintro (h1 | ⟨_, h1⟩)
        · exact nextComb_none h (v2.mono (by omega)) y (x2.mono (by omega)) (by simpa using hl) h1
        · omega

theorem range_rev_valid : ∀ s : Nat, Valid s (List.range s).reverse
  | 0 => by simp [Valid]
  | s + 1 => by
    rw [List.range_succ, List.reverse_append]
    exact ⟨Nat.lt_succ_self s, range_rev_valid s⟩

theorem valid_mem_lt : ∀ {l : List Nat} {n : Nat}, Valid n l → ∀ j ∈ l, j < n
  | [], _, _, _, h => by simp at h
  | _ :: _, _, h, j, hj => by
    rcases List.mem_cons.1 hj with rfl | hj
    · exact h.1
    · exact (valid_mem_lt h.2 j hj).trans h.1

/-- a valid combination of `s` elements has largest element at least `s - 1` -/
theorem valid_length : ∀ {l : List Nat} {n : Nat}, Valid n l → l.length ≤ n
  | [], _, _ => by simp
  | _ :: l, n, h => by
    have := valid_length h.2
    have := h.1
    simp only [List.length_cons]
    omega

/-- the first combination is the least -/
theorem range_rev_min : ∀ (s : Nat) (x : List Nat) (n : Nat), Valid n x → x.length = s → ¬ LexLt x (List.range s).reverse
  | 0, x, n, _, h => by cases x <;> simp [LexLt]
  | s + 1, x, n, hx, h => by
    rw [List.range_succ, List.reverse_append]
    cases x with
    | nil => simp at h
    | cons k y =>
      rintro (h1 | ⟨rfl, h1⟩)
      · exact range_rev_min s y k hx.2 (by simpa using h) h1
      · have := valid_length hx.2
        have h2 : (List.range s).reverse.length = s := by simp
        change (List.range s).reverse.length ≤ k at this
        omega

theorem combMeas_le : ∀ {l : List Nat} {i n : Nat}, Valid i l → i ≤ n → combMeas n l + 2 ^ (n - i) ≤ 2 ^ n
  | [], i, n, _, _ => by
    show 0 + 2 ^ (n - i) ≤ 2 ^ n
    rw [zero_add]
    exact Nat.pow_le_pow_right (by norm_num) (by omega)
  | k :: l, i, n, h, hi => by
    obtain ⟨h1, h2⟩ := h
    have ih := combMeas_le (n := n - 1) h2 (by omega)
    show 2 ^ (n - 1 - k) + 2 * combMeas (n - 1) l + 2 ^ (n - i) ≤ 2 ^ n
    have e : 2 ^ n = 2 * 2 ^ (n - 1) := by rw [← pow_succ']; congr 1; omega
    have e2 : 2 ^ (n - i) ≤ 2 ^ (n - 1 - k) := Nat.pow_le_pow_right (by norm_num) (by omega)
    omega

theorem combMeas_lt {l : List Nat} {n : Nat} (h : Valid n l) : combMeas n l < 2 ^ n := by
  have := combMeas_le h le_rfl
  have : 0 < 2 ^ (n - n) := by positivity
  omega

/-! ## sublists and index lists -/

theorem getD_map_reverse_sublist {α : Type*} (d : α) (T : List α) : ∀ {l : List Nat} {n : Nat}, Valid n l → n ≤ T.length → (l.reverse.map fun i => T.getD i d).Sublist (T.take n)
  | [], _, _, _ => by simp
  | i :: l, n, h, hn => by
    obtain ⟨h1, h2⟩ := h
    have ih := getD_map_reverse_sublist d T h2 (by omega)
    rw [List.reverse_cons, List.map_append, List.map_cons, List.map_nil]
    have e : (T.take (i + 1)) = T.take i ++ [T.getD i d] := by
      rw [List.getD_eq_getElem _ _ (by omega)]
      exact (List.take_concat_get' T i (by omega)).symm
    have h3 : (T.take (i + 1)).Sublist (T.take n) := by
      have : T.take (i + 1) = (T.take n).take (i + 1) := by rw [List.take_take]; congr 1; omega
      rw [this]
      exact List.take_sublist _ _
    refine List.Sublist.trans ?_ h3
    rw [e]
    exact List.Sublist.append ih (List.Sublist.refl _)

theorem valid_concat_zero : ∀ {l : List Nat} {n : Nat}, Valid n l → Valid (n + 1) (l.map (· + 1) ++ [0])
  | [], n, _ => ⟨Nat.succ_pos n, trivial⟩
  | _ :: _, n, h => ⟨Nat.succ_lt_succ h.1, valid_concat_zero h.2⟩

theorem valid_map_succ : ∀ {l : List Nat} {n : Nat}, Valid n l → Valid (n + 1) (l.map (· + 1))
  | [], n, _ => trivial
  | _ :: _, n, h => ⟨Nat.succ_lt_succ h.1, valid_map_succ h.2⟩

/-- every sublist is picked by a valid index list -/
theorem exists_indices {α : Type*} (d : α) {S T : List α} (h : S.Sublist T) : ∃ l, Valid T.length l ∧ l.length = S.length ∧ (l.reverse.map fun i => T.getD i d) = S := by
  induction h with
  | slnil => exact ⟨[], trivial, rfl, rfl⟩
  | @cons S T a h ih =>
    obtain ⟨l, h1, h2, h3⟩ := ih
    refine ⟨l.map (· + 1), valid_map_succ h1, by simpa using h2, ?_⟩
    rw [← List.map_reverse, List.map_map, ← h3]
    simp [Function.comp_def]
  | @cons_cons S T a h ih =>
    obtain ⟨l, h1, h2, h3⟩ := ih
    refine ⟨l.map (· + 1) ++ [0], valid_concat_zero h1, by simpa using h2, ?_⟩
    rw [List.reverse_append, ← List.map_reverse, List.map_append, List.map_map, ← h3]
    simp [Function.comp_def]

/-- removing a combination leaves the complement -/
theorem removeIdx_perm (d : UPoly ℤ) : ∀ {l : List Nat} {n : Nat} (T : List (UPoly ℤ)), Valid n l → n ≤ T.length → ((l.map fun i => T.getD i d) ++ removeIdx T l).Perm T
  | [], _, T, _, _ => by simp [removeIdx]
  | i :: l, n, T, h, hn => by
    obtain ⟨h1, h2⟩ := h
    have e : removeIdx T (i :: l) = removeIdx (T.eraseIdx i) l := rfl
    have hi : i < T.length := by omega
    have ih := removeIdx_perm d (T.eraseIdx i) h2 (by rw [List.length_eraseIdx_of_lt hi]; omega)
    have e2 : (l.map fun j => (T.eraseIdx i).getD j d) = l.map fun j => T.getD j d := by
      apply List.map_congr_left
      intro j hj
      have hji : j < i := valid_mem_lt h2 j hj
      rw [List.getD_eq_getElem?_getD, List.getD_eq_getElem?_getD, List.getElem?_eraseIdx_of_lt hji]
    rw [e2] at ih
    rw [e, List.map_cons, List.cons_append]
    refine (ih.cons _).trans ?_
    rw [List.getD_eq_getElem _ _ hi]
    exact List.getElem_cons_eraseIdx_perm hi

/-! ## the loop over the combinations -/

/-- if no test fails, the loop ends, with a success or after all combinations have been rejected -/
theorem combLoop_spec {m : ℤ} {fstar : UPoly ℤ} {T : List (UPoly ℤ)} (htry : ∀ S : List (UPoly ℤ), S.Sublist T → tryOne m fstar S ≠ none) :
    ∀ (fuel : Nat) (idx : List Nat), Valid T.length idx → combMeas T.length idx < fuel →
      (∃ l x, combLoop m fstar T fuel idx = some (some (l, x)) ∧ Valid T.length l ∧ l.length = idx.length ∧ tryOne m fstar (l.reverse.map fun i => T.getD i []) = some (some x)) ∨
      (combLoop m fstar T fuel idx = some none ∧ ∀ l, Valid T.length l → l.length = idx.length → ¬ LexLt l idx → tryOne m fstar (l.reverse.map fun i => T.getD i []) = some none) := by
  intro fuel
  induction fuel with
  | zero => intro idx _ h; omega
  | succ fuel ih =>
    intro idx hv hf
    have e : combLoop m fstar T (fuel + 1) idx = (tryOne m fstar (idx.reverse.map fun i => T.getD i [])).bind fun o =>
      match o with
      | some x => some (some (idx, x.1, x.2))
      | none =>
        match nextComb T.length idx with
        | none => some none
        | some idx' => combLoop m fstar T fuel idx' := rfl
    have hsub := getD_map_reverse_sublist ([] : UPoly ℤ) T hv le_rfl
    rw [List.take_length] at hsub
    have ht := htry _ hsub
    rw [e]
    cases ho : tryOne m fstar (idx.reverse.map fun i => T.getD i []) with
    | none => exact absurd ho ht
    | some o =>
      rw [Option.bind_some]
      cases o with
      | some x => exact .inl ⟨idx, x, rfl, hv, rfl, ho⟩
      | none =>
        cases hn : nextComb T.length idx with
        | none =>
          right
          refine ⟨rfl, fun l h1 h2 h3 => ?_⟩
          rcases lex_total h2 with h | rfl | h
          · exact absurd h h3
          · exact ho
          · exact absurd h (nextComb_none hn hv l h1 h2)
        | some idx' =>
          obtain ⟨a1, a2, a3, a4, a5, _⟩ := nextComb_some hn hv
          have : 0 < 2 ^ (T.length - 1 - idx'.headD 0) := by positivity
          rcases ih idx' a1 (by omega) with ⟨l, x, b1, b2, b3, b4⟩ | ⟨b1, b2⟩
          · exact .inl ⟨l, x, b1, b2, b3.trans a2, b4⟩
          · right
            refine ⟨b1, fun l h1 h2 h3 => ?_⟩
            rcases lex_total h2 with h | rfl | h
            · exact absurd h h3
            · exact ho
            · exact b2 l h1 (h2.trans a2.symm) fun h' => a4 l h1 h2 h h'

/-- partial correctness without any hypothesis on the tests -/
theorem combLoop_found {m : ℤ} {fstar : UPoly ℤ} {T : List (UPoly ℤ)} : ∀ (fuel : Nat) (idx : List Nat) {l : List Nat} {x : UPoly ℤ × UPoly ℤ}, combLoop m fstar T fuel idx = some (some (l, x)) →
    tryOne m fstar (l.reverse.map fun i => T.getD i []) = some (some x) := by
  intro fuel
  induction fuel with
  | zero => intro idx l x h; simp [combLoop] at h
  | succ fuel ih =>
    intro idx l x h
    have e : combLoop m fstar T (fuel + 1) idx = (tryOne m fstar (idx.reverse.map fun i => T.getD i [])).bind fun o =>
      match o with
      | some x => some (some (idx, x.1, x.2))
      | none =>
        match nextComb T.length idx with
        | none => some none
        | some idx' => combLoop m fstar T fuel idx' := rfl
    rw [e] at h
    cases ho : tryOne m fstar (idx.reverse.map fun i => T.getD i []) with
    | none => rw [ho] at h; simp at h
    | some o =>
      rw [ho, Option.bind_some] at h
      cases o with
      | some y =>
        simp only [Option.some.injEq, Prod.mk.injEq] at h
        obtain ⟨rfl, rfl⟩ := h
        rw [ho]
      | none =>
        cases hn : nextComb T.length idx with
        | none => rw [hn] at h; simp at h
        | some idx' => rw [hn] at h; exact ih idx' h

end Upoly
end CLPoly
